import Verif.Lemmas.Lines
/-! # Requests wait in line for their modules: all states -/
namespace Verif
open Verif.Spec

variable {A B : Type} {s s' : Sim} {p : ℕ} {C : Cfg}

/-! ## Processes do not begin anew -/

/-- What code gives. -/
def Gives (Q : A → Prop) (m : SimM A) : Prop := ∀ (s : Sim) a, (m s).2 = .ok a → Q a

/-- A process does not wait at the beginning of a module. -/
def NotNew (r : Res) : Prop := ∀ ev n, r ≠ .wait ev (.extraNew n)

theorem gives_bind {Q : B → Prop} {m : SimM A} {f : A → SimM B} (hf : ∀ a, Gives Q (f a)) : Gives Q (m >>= f) := by
  intro s b
  show (SimM.bind m f s).2 = .ok b → Q b
  unfold SimM.bind
  rcases h : m s with ⟨s1, e | a⟩
  · intro h; cases h
  · exact hf a s1 b

theorem gives_pure {Q : A → Prop} {a : A} (h : Q a) : Gives Q (pure a) := fun _ b hb => by cases hb; exact h
theorem gives_throw {Q : A → Prop} {e : PyErr} : Gives Q (SimM.throw e : SimM A) := fun _ b hb => by cases hb
theorem gives_ite {Q : A → Prop} {b : Prop} [Decidable b] {m m' : SimM A} (h : Gives Q m) (h' : Gives Q m') : Gives Q (if b then m else m') := by split <;> assumption

theorem gives_done {v : SVal} : Gives NotNew (pure (.done v)) := gives_pure fun _ _ h => by cases h
theorem gives_wait {ev : ℕ} {pt : Pt} (h : ∀ n, pt ≠ .extraNew n) : Gives NotNew (pure (.wait ev pt)) := gives_pure fun _ n he => by cases he; exact h n rfl

macro "gives" : tactic => `(tactic| repeat' with_reducible first
  | assumption
  | exact gives_done | exact gives_wait (fun _ h => by cases h) | exact gives_throw
  | refine gives_ite ?_ ?_
  | refine gives_bind fun _ => ?_)

theorem gives_localRun {name : String} {r : Out Mach YV Unit} : Gives NotNew (localRun name r) := by
  cases r with
  | yield w y k => cases y <;> (unfold localRun; gives)
  | ret w r => unfold localRun; gives
  | raise w x => unfold localRun; gives

theorem gives_extraLoop {name : String} : Gives NotNew (extraLoop C name) := by
  unfold extraLoop
  refine gives_bind fun l => ?_
  split <;> gives

theorem gives_procSpins {n : ℕ} : Gives NotNew (procSpins n) := by unfold procSpins; gives
theorem gives_procCycle {pt : Pt} (h : ∀ n, pt ≠ .extraNew n) : Gives NotNew (procCycle C pt) := by
  unfold procCycle
  refine gives_bind fun _ => gives_bind fun _ => gives_pure fun ev n he => ?_
  cases he; exact h n rfl
theorem gives_procLoop : Gives NotNew procLoop := by
  have := gives_procSpins (n := 4)
  unfold procLoop; gives
theorem gives_envIter {e : EnvEvent} {k : Mach → Out Mach EnvEvent Unit} : Gives NotNew (envIter e k) := by unfold envIter; gives

theorem gives_code {pt : Pt} {x : Except PyErr SVal} : Gives NotNew (code C pt x) := by
  have h1 := gives_procLoop
  have h2 := fun n => gives_procSpins (n := n)
  have h3 := gives_procCycle (C := C) (pt := .procAgain) (fun _ h => by cases h)
  have h4 := gives_procCycle (C := C) (pt := .procFirst) (fun _ h => by cases h)
  have h5 := fun name => gives_extraLoop (C := C) (name := name)
  have h6 := fun name r => gives_localRun (name := name) (r := r)
  cases pt with
  | procNew => rcases x with x | v <;> [exact gives_throw; exact h4]
  | procFirst => rcases x with x | v <;> [exact gives_throw; exact gives_bind fun _ => h1]
  | procIdle => rcases x with x | v <;> [exact gives_throw; exact h2 4]
  | procSpin n => rcases x with x | v <;> [exact gives_throw; (rcases n with _ | n <;> [exact h3; exact h2 n])]
  | procAgain => rcases x with x | v <;> [exact gives_throw; exact gives_bind fun _ => gives_bind fun _ => gives_bind fun _ => h1]
  | extraNew name => rcases x with x | v <;> [exact gives_throw; exact h5 name]
  | extraIdle name => rcases x with x | v <;> [exact gives_throw; exact gives_bind fun _ => h5 name]
  | extraMain name pro =>
    show Gives NotNew (extraAfterMain C name pro x)
    have := h5 name
    unfold extraAfterMain
    split <;> gives
  | extraCont name =>
    show Gives NotNew (extraAfterCont C name x)
    have := h5 name
    unfold extraAfterCont
    split <;> gives
  | localNew name g => rcases x with x | v <;> [exact gives_throw; exact gives_bind fun w => h6 name _]
  | localWait name e k =>
    show Gives NotNew (localResume name e k x)
    unfold localResume
    split
    · gives
    · gives
    · exact gives_bind fun _ => gives_bind fun _ => gives_bind fun _ => gives_bind fun w => h6 name _
  | envNew =>
    rcases x with x | v <;> [exact gives_throw; skip]
    intro s r hr
    replace hr : (envStart C s).2 = .ok r := hr
    unfold envStart at hr
    split at hr
    · cases hr
    · split at hr
      · exact gives_envIter _ _ hr
      · cases hr
      · cases hr
  | envWait pro k =>
    rcases x with x | v <;> [exact gives_throw; refine gives_bind fun _ => ?_]
    intro s r hr
    unfold envAdvance at hr
    split at hr
    · cases hr; exact fun _ _ h => by cases h
    · cases hr
    · exact (gives_bind fun _ => gives_envIter) _ _ hr
  | envProcNew e =>
    rcases x with x | v <;> [exact gives_throw; skip]
    intro s r hr
    replace hr : (envProcStart e s).2 = .ok r := hr
    unfold envProcStart at hr
    split at hr
    · cases hr; exact fun _ _ h => by cases h
    · exact (gives_bind fun _ => gives_throw (A := Res)) _ _ hr
  | envProc e =>
    show Gives NotNew (envProcResume e x)
    unfold envProcResume
    split <;> gives

/-! ## Steps -/

/-- What a step does: requests are only added, or one module takes its first one. -/
def LineStep (C : Cfg) (s s' : Sim) : Prop :=
  Lines s s' ∨ ∃ name p pro, Took C name pro s s' ∧ alook name s.extra = some p ∧ s'.points p = some (.extraMain name pro)

/-- What matters here is the same. -/
structure Alike (s s' : Sim) : Prop where
  next : s'.next = s.next
  points : s'.points = s.points
  activate : s'.activate = s.activate
  extra : s'.extra = s.extra
  started : s'.started = s.started
  w : s'.w = s.w

theorem alike_refl (s : Sim) : Alike s s := ⟨rfl, rfl, rfl, rfl, rfl, rfl⟩
theorem alike_trans {a b c : Sim} (h1 : Alike a b) (h2 : Alike b c) : Alike a c :=
  ⟨h2.1.trans h1.1, h2.2.trans h1.2, h2.3.trans h1.3, h2.4.trans h1.4, h2.5.trans h1.5, h2.6.trans h1.6⟩
theorem alike_lines (h : Alike s s') : Lines s s' := lines_same h.next.ge h.activate h.started (by rw [h.w]; exact gains_refl _) h.extra h.points
theorem alike_list (h : Alike s s') : s'.startedList = s.startedList := by unfold Sim.startedList; rw [h.started, h.w]

theorem lineStep_pre {s1 : Sim} (h : Alike s s1) (h1 : LineStep C s1 s') : LineStep C s s' := by
  rcases h1 with h1 | ⟨name, p, pro, h1, h2, h3⟩
  · exact .inl (lines_trans (alike_lines h) h1)
  · exact .inr ⟨name, p, pro, took_pre (alike_lines h).fits h.started h.w h1, by rw [← h.extra]; exact h2, h3⟩

theorem lineStep_post {s1 : Sim} (h1 : LineStep C s s1) (h : Alike s1 s') : LineStep C s s' := by
  rcases h1 with h1 | ⟨name, p, pro, h1, h2, h3⟩
  · exact .inl (lines_trans h1 (alike_lines h))
  · refine .inr ⟨name, p, pro, ⟨fitted_trans h1.fits (alike_lines h).fits, ?_, ?_, by rw [h.started]; exact h1.own, fun hs => by rw [h.w]; exact h1.procs hs, h1.new⟩, h2, by rw [h.points]; exact h3⟩
    · rw [alike_list h, h.points]; exact h1.req
    · rw [alike_list h]; exact h1.others

theorem lineStep_fits (h : LineStep C s s') : Fitted s s' := by
  rcases h with h | ⟨_, _, _, h, _⟩ <;> exact h.fits

/-- What is known of processes. -/
def Proper (s : Sim) : Prop := ∀ p pt, s.points p = some pt → p < s.next ∧ pt.gains ∧ ∀ n, pt.module = some n → alook n s.extra = some p ∧ (alook n s.activate).isSome

theorem proper_alike (h : Alike s s') (hp : Proper s) : Proper s' := fun p pt hpt => by
  rw [h.points] at hpt
  rw [h.next, h.extra, h.activate]
  exact hp p pt hpt

/-- A process that has run waits or ends. -/
theorem lines_after {s1 : Sim} {P : ℕ → Option Pt} (h : Lines s s1) (hP : ∀ q n, P q = some (.extraNew n) → s1.points q = some (.extraNew n)) : Lines s { s1 with points := P } :=
  ⟨⟨h.fits.next, h.fits.act, fun q n hq => h.fits.pts q n (hP q n hq), h.fits.extra⟩, h.procs, h.own, h.shared⟩

theorem lineStep_resume {x : Except PyErr SVal} (h : Proper s) : LineStep C s (s.resume C p x) := by
  cases hp : s.points p with
  | none => unfold Sim.resume; rw [hp]; exact .inl (lines_refl s)
  | some pt =>
    obtain ⟨hlt, hg, hm⟩ := h p pt hp
    have hend : ∀ (s1 : Sim) (o : Option Pt) (n : String) (q : ℕ), (∀ n, o ≠ some (.extraNew n)) → fset s1.points p o q = some (.extraNew n) → s1.points q = some (.extraNew n) := fun s1 o n q ho hq => by
      by_cases he : q = p
      · subst he; rw [fset_same] at hq; exact absurd hq (ho n)
      · rw [fset_other _ _ he] at hq; exact hq
    have hlines : Lines s (code C pt x s).1 → LineStep C s (s.resume C p x) := fun hl => by
      left
      unfold Sim.resume
      rw [hp]
      have hn := gives_code (C := C) (pt := pt) (x := x) s
      dsimp only
      split
      · rename_i s1 ev pt' hc
        rw [hc] at hl hn
        have hn := hn _ rfl
        exact lines_trans (lines_after hl fun q n => hend s1 (some pt') n q fun m hm => hn ev m (by cases hm; rfl)) (lines_same le_rfl rfl rfl (gains_refl _) rfl rfl)
      · rename_i s1 v hc
        rw [hc] at hl
        exact lines_trans (lines_after hl fun q n => hend s1 Option.none n q (by simp)) (lines_trigger _ _ _)
      · rename_i s1 v hc
        rw [hc] at hl
        exact lines_trans (lines_after hl fun q n => hend s1 Option.none n q (by simp)) (lines_trigger _ _ _)
    cases hmod : pt.module with
    | none => exact hlines (liny_code C hmod hg s)
    | some name =>
      obtain ⟨he, ha⟩ := hm name hmod
      rcases serving_code C (x := x) hmod ha with hl | ⟨pro, ht, hr⟩
      · exact hlines hl
      · right
        rcases hc : code C pt x s with ⟨s1, r⟩
        rw [hc] at ht hr
        cases hr
        have heq : s.resume C p x = ({ s1 with points := fset s1.points p (some (.extraMain name pro)), target := fset s1.target p pro } : Sim).addCallback pro (.resume p) := by
          unfold Sim.resume
          rw [hp]
          dsimp only
          rw [hc]
        rw [heq]
        refine ⟨name, p, pro, ⟨⟨ht.fits.next, ht.fits.act, fun q n hq => ht.fits.pts q n (hend s1 (some (.extraMain name pro)) n q (fun _ h => by cases h) hq), ht.fits.extra⟩, ?_, ht.others, ht.own, ht.procs, ht.new⟩, he, fset_same _ _ _⟩
        obtain ⟨r, h1, h2⟩ := ht.req
        refine ⟨r, h1, ?_⟩
        show fset s1.points p _ pro = _
        rw [fset_other _ _ (Nat.ne_of_gt (hlt.trans_le ht.new))]; exact h2

theorem alike_check {ev c : ℕ} {v : Except PyErr SVal} : Alike s (callback C ev v s (.check c)) := by
  unfold callback
  dsimp only
  split
  · exact alike_refl s
  · split <;> exact ⟨rfl, rfl, rfl, rfl, rfl, rfl⟩

theorem alike_callbacks {ev : ℕ} {v : Except PyErr SVal} : ∀ (l : List Callback) {s : Sim}, (∀ p, .resume p ∉ l) → (∀ p, .interrupt p ∉ l) → Alike s (l.foldl (callback C ev v) s)
  | [], s, _, _ => alike_refl s
  | cb :: l, s, h1, h2 => by
    refine alike_trans ?_ (alike_callbacks l (fun p hm => h1 p (.tail _ hm)) fun p hm => h2 p (.tail _ hm))
    cases cb with
    | resume p => exact absurd (.head _) (h1 p)
    | interrupt p => exact absurd (.head _) (h2 p)
    | check c => exact alike_check
    | build c a b => exact ⟨rfl, rfl, rfl, rfl, rfl, rfl⟩
    | stop => exact alike_refl s

theorem lineStep_callbacks {ev : ℕ} {v : Except PyErr SVal} : ∀ (l : List Callback) {s : Sim}, Proper s → (∀ p, .interrupt p ∈ l → l = [.interrupt p]) → (∀ p q, .resume p ∈ l → .resume q ∈ l → p = q) →
    (∀ p, l.count (.resume p) ≤ 1) → LineStep C s (l.foldl (callback C ev v) s)
  | [], s, _, _, _, _ => .inl (lines_refl s)
  | cb :: l, s, hp, hi, ho, hc => by
    have htail : Alike s (callback C ev v s cb) → LineStep C s ((cb :: l).foldl (callback C ev v) s) := fun h =>
      lineStep_pre h (lineStep_callbacks l (proper_alike h hp) (fun p hm => by
          have := hi p (.tail _ hm)
          cases this; cases hm) (fun p q h1 h2 => ho p q (.tail _ h1) (.tail _ h2)) fun p => ((List.sublist_cons_self cb l).count_le _).trans (hc p))
    cases cb with
    | resume p =>
      have h1 : ∀ q, .resume q ∉ l := fun q hq => by
        have he := ho p q (.head _) (.tail _ hq)
        subst he
        have := hc p
        have h2 := List.count_pos_iff.2 hq
        rw [List.count_cons_self] at this; omega
      have h2 : ∀ q, .interrupt q ∉ l := fun q hq => by
        have := hi q (.tail _ hq)
        cases this
      refine lineStep_post (s1 := callback C ev v s (.resume p)) ?_ (alike_callbacks l h1 h2)
      unfold callback
      cases v with
      | ok v => exact lineStep_resume hp
      | error e =>
        have ha : Alike s (s.defuse ev) := ⟨rfl, rfl, rfl, rfl, rfl, rfl⟩
        exact lineStep_pre ha (lineStep_resume (proper_alike ha hp))
    | interrupt p =>
      have := hi p (.head _)
      cases this
      show LineStep C s (callback C ev v s (.interrupt p))
      unfold callback
      dsimp only
      split
      · exact .inl (lines_refl s)
      · have ha : Alike s (s.dropCallback (s.target p) (.resume p)) := ⟨rfl, rfl, rfl, rfl, rfl, rfl⟩
        exact lineStep_pre ha (lineStep_resume (proper_alike ha hp))
    | check c => exact htail alike_check
    | build c a b => exact htail ⟨rfl, rfl, rfl, rfl, rfl, rfl⟩
    | stop => exact htail (alike_refl s)

/-! ## All states -/

/-- Modules that have not begun have an event. -/
def Equipped (s : Sim) : Prop := ∀ p n, s.points p = some (.extraNew n) → (alook n s.activate).isSome

theorem equipped_fitted (h : Equipped s) (hf : Fitted s s') : Equipped s' := fun p n hp => hf.act n (h p n (hf.pts p n hp))

theorem proper_ready (h : Ready (fun _ => 0) (fun _ => False) s) (he : Equipped s) : Proper s := fun p pt hp => by
  refine ⟨(Nat.lt_succ_self _).trans (h.poised.born p pt hp), h.poised.gens p pt hp, fun n hn => ⟨h.poised.kind p pt n hp id hn, ?_⟩⟩
  have hb : pt.working = some n → (alook n s.activate).isSome := fun hw => by
    obtain ⟨⟨a, ha, _⟩, _⟩ := h.poised.busy p pt n hp id hw
    rw [ha]; rfl
  cases pt with
  | extraNew m => cases hn; exact he p n hp
  | extraIdle m => cases hn; rw [(h.poised.idle p n hp id).1]; rfl
  | extraMain m pro => cases hn; exact hb rfl
  | extraCont m => cases hn; exact hb rfl
  | _ => cases hn

theorem lineStep_step (h : Ready (fun _ => 0) (fun _ => False) s) (hf : Fine C.ruleFiring s) (he : Equipped s) (hl : Stepped.leads (s.step C) s') : LineStep C s s' := by
  rcases step_cases (C := C) (s := s) rfl with ⟨hst, _⟩ | ⟨en, q, hq, hcase⟩
  · rw [hst] at hl
    rcases hl with hl | hl | ⟨_, hl⟩ <;> cases hl
  · have hp := proper_ready h he
    have ha : Alike s (s.taken en q) := ⟨rfl, rfl, rfl, rfl, rfl, rfl⟩
    have hcalled : LineStep C s (s.called C en q) := by
      unfold Sim.called
      refine lineStep_pre ha (lineStep_callbacks _ (proper_alike ha hp) (fun p hm => (h.poised.intr en.ev p hm).1) (fun p q h1 h2 => h.poised.one en.ev p q h1 h2) ?_)
      exact (pending_taken hf.1 hq).once
    rcases hcase with ⟨_, hr⟩ | ⟨_, hr | ⟨x, hr⟩⟩
    all_goals
      rw [hr] at hl
      rcases hl with hl | hl | ⟨_, hl⟩ <;> cases hl
    · exact .inl (alike_lines ha)
    · exact hcalled
    · exact hcalled

theorem equipped_initExtra : ∀ (l : List String) {s : Sim}, Equipped s → Equipped (initExtra l s).1
  | [], s, h => h
  | n :: r, s, h => by
    by_cases hn : n = procName
    · have : initExtra (n :: r) s = initExtra r s := by
        show (if n = procName then _ else _ : SimM Unit) s = _
        rw [if_pos hn]
      rw [this]; exact equipped_initExtra r h
    · have : initExtra (n :: r) s = initExtra r { (newEvent (process (.extraNew n) s).1).1 with
        extra := (newEvent (process (.extraNew n) s).1).1.extra ++ [(n, s.next)], activate := (newEvent (process (.extraNew n) s).1).1.activate ++ [(n, (process (.extraNew n) s).1.next)] } := by
        show (if n = procName then _ else _ : SimM Unit) s = _
        rw [if_neg hn]; rfl
      rw [this]
      refine equipped_initExtra r fun p m hp => ?_
      have hp : fset s.points s.next (some (.extraNew n)) p = some (.extraNew m) := hp
      show (alook m (s.activate ++ [(n, _)])).isSome = true
      by_cases he : p = s.next
      · subst he
        rw [fset_same] at hp
        cases hp
        rw [Option.isSome_iff_ne_none]
        exact fun h0 => alook_none_iff.1 h0 _ (List.mem_append_right _ (.head _))
      · rw [fset_other _ _ he] at hp
        obtain ⟨a, ha⟩ := Option.isSome_iff_exists.1 (h p m hp)
        rw [alook_append_some ha]; rfl

theorem equipped_init (w : Mach) (args : Option EnvArgs) (t : ℚ) : Equipped (Sim.init w args t) := by
  have h0 : Equipped (process .procNew (Sim.blank w args t)).1 := equipped_fitted (s := Sim.blank w args t) (fun _ _ h => by cases h) (liny_process (fun _ h => by cases h) _).fits
  have h1 := equipped_initExtra (w.bufs.map Prod.fst) h0
  unfold Sim.init
  show Equipped (SimM.bind (initExtra (w.bufs.map Prod.fst)) _ (process .procNew (Sim.blank w args t)).1).1
  unfold SimM.bind
  rcases hr : initExtra (w.bufs.map Prod.fst) (process .procNew (Sim.blank w args t)).1 with ⟨s1, x | r⟩
  · rw [hr] at h1; exact h1
  · rw [hr] at h1
    refine equipped_fitted h1 (Lines.fits ?_)
    have : Liny (if w.env.isSome then do
        let _ ← process .envNew
        pure ()
      else pure () : SimM Unit) := by liny
    exact this s1

theorem lines_compile (s : Sim) : Lines s (compileAtEnd C s).1 := by
  unfold compileAtEnd
  split
  · have h := procs_compileIn C s.w
    split
    · rename_i w1 _ hc; rw [hc] at h; exact lines_same le_rfl rfl rfl (gains_procs h) rfl rfl
    · rename_i w1 x hc; rw [hc] at h; exact lines_same le_rfl rfl rfl (gains_procs h) rfl rfl
  · exact lines_refl s

theorem lines_setStop (s : Sim) (t : ℚ) : Lines s (s.setStop t).1 := by
  unfold Sim.setStop
  split
  · exact lines_refl s
  · exact lines_timer s _ _ _

variable {w : Mach} {args : Option EnvArgs} {t : ℚ}

theorem equipped_reachable (hw : (w.bufs.map Prod.fst).Nodup) (h : Reachable C w args t s) : Equipped s := by
  induction h with
  | init => exact equipped_init w args t
  | @stop s0 _ q _ _ hs ih => have := equipped_fitted ih (lines_setStop s0 q).fits; rw [hs] at this; exact this
  | step hr hs ih => exact equipped_fitted ih (lineStep_fits (lineStep_step (ready_reachable hw hr) (fine_reachable hr) ih (.inl hs)))
  | stopped hr hs ih => exact equipped_fitted ih (lineStep_fits (lineStep_step (ready_reachable hw hr) (fine_reachable hr) ih (.inr (.inl hs))))
  | raised hr hs ih => exact equipped_fitted ih (lineStep_fits (lineStep_step (ready_reachable hw hr) (fine_reachable hr) ih (.inr (.inr ⟨_, hs⟩))))
  | @compile s0 _ _ _ hs ih => have := equipped_fitted ih (lines_compile (C := C) s0).fits; rw [hs] at this; exact this

end Verif
