import Verif.Lemmas.Lasting
import Verif.Lemmas.Confined
/-! # What is left to be done: rules -/
namespace Verif
open Verif.Spec

variable {C : Cfg} {N n m p : ℕ} {s s' : Sim} {A B : Type}

/-! ## The word PROCEDURAL -/

/-- It is as often in the list as before. -/
def Counts (w w' : Mach) : Prop := pcount w' = pcount w

theorem counts_refl (w : Mach) : Counts w w := rfl
theorem counts_trans (a b c : Mach) (h1 : Counts a b) (h2 : Counts b c) : Counts a c := Eq.trans h2 h1
theorem counts_procs {w w' : Mach} (h : w'.procs = w.procs) : Counts w w' := by unfold Counts pcount; rw [h]
theorem counts_queue (w : Mach) (n : String) (d : Desc) : Counts w (w.queue n d) := by
  show List.countP _ (w.procs ++ [.gen n w.nextId d]) = List.countP _ w.procs
  rw [List.countP_append]; rfl

theorem counts_harvest (t : ℚ) : ∀ l w, Counts w (harvestAll t l w)
  | [], w => counts_refl w
  | n :: r, w => by
    unfold harvestAll
    refine counts_trans _ _ _ ?_ (counts_harvest t r _)
    split
    · exact counts_queue w n _
    · exact counts_refl w

theorem counts_updateLoop (C : Cfg) (t : ℚ) : ∀ l temp w, (updateLoop C t l temp w).Moves Counts w
  | [], temp, w => counts_refl w
  | (k, v) :: r, temp, w => by
    unfold updateLoop
    refine moves_bind counts_trans (moves_act ?_) fun _ w => ?_
    · split <;> exact counts_refl _
    refine moves_bind counts_trans (moves_get counts_refl _ w) fun bv w => ?_
    refine moves_bind counts_trans (moves_set (counts_procs (confined_setState (n := k.name)).procs)) fun _ w => ?_
    have hrest := fun w => counts_updateLoop C t r (temp.popVar k.name) w
    dsimp only
    split
    · exact moves_bind counts_trans (moves_set (counts_queue w _ _)) fun _ w => hrest w
    · exact moves_bind counts_trans (moves_mono (fun _ _ h => counts_procs h.procs) ((confined_immediate C k v bv t).moves w)) fun _ w => hrest w

theorem counts_rhs (C : Cfg) (n : String) (rule : CRule) (t : ℚ) (w : Mach) : (genRhs C n rule t w).Moves Counts w := by
  unfold genRhs
  refine moves_bind counts_trans (moves_lift counts_refl _ w) fun rhs w => ?_
  refine moves_bind counts_trans ?_ fun _ w => moves_set (counts_procs ?_)
  · unfold genUpdate
    refine moves_bind counts_trans (moves_get counts_refl _ w) fun temp w => ?_
    refine moves_bind counts_trans (moves_lift counts_refl _ w) fun sorted w => ?_
    refine moves_bind counts_trans (counts_updateLoop C t _ _ w) fun left w => moves_set ?_
    split
    · exact counts_harvest t _ w
    · exact counts_refl w
  · split
    · split <;> rfl
    · rfl

theorem counts_event (t : ℚ) (nm : String) (a : Act) (w : Mach) : (GenM.event t nm a w).Moves Counts w := ⟨rfl, fun w' => counts_refl w'⟩

theorem counts_fire (C : Cfg) (n : String) (rule : CRule) (t : ℚ) (w : Mach) : (genFire C n rule t w).Moves Counts w := by
  unfold genFire
  refine moves_bind counts_trans (moves_set (counts_procs ?_)) fun _ w => ?_
  · unfold rewardStep
    split
    · split <;> rfl
    · rfl
  refine moves_bind counts_trans (moves_act (counts_procs ?_)) fun comp w => ?_
  · unfold compileIn
    split
    · dsimp only
      split <;> rfl
    · rfl
  refine moves_bind counts_trans (moves_set (counts_refl _)) fun _ w => ?_
  have hrest : ∀ w, ((do .set (fun w => { w with curSlots := w.noSlots }); .event t procName (.fired n); genRhs C n rule t : GenM Unit) w).Moves Counts w := fun w => by
    refine moves_bind counts_trans (moves_set (counts_refl _)) fun _ w => ?_
    exact moves_bind counts_trans (counts_event _ _ _ w) fun _ w => counts_rhs C n rule t w
  rcases comp with _ | ⟨m, re⟩
  · exact hrest w
  · exact moves_bind counts_trans (counts_event _ _ _ w) fun _ w => hrest w

theorem counts_test (C : Cfg) (n : String) (rule : CRule) (t : ℚ) (w : Mach) : (genTest C n rule t w).Moves Counts w := by
  unfold genTest
  refine moves_bind counts_trans (moves_lift counts_refl _ w) fun lhs w => ?_
  refine moves_bind counts_trans (moves_act (counts_refl _)) fun m w => ?_
  cases m with
  | none => exact counts_event _ _ _ w
  | some bv => exact moves_bind counts_trans (moves_set (counts_refl _)) fun _ w => counts_fire C n rule t w

/-! ## What is announced later -/

/-- Neither a new cycle nor a choice. -/
def LateY : YV → Prop := fun y => ∀ e, y = .ev e → e.act.step = .late

theorem lateY_of {y : YV} (h : ModuleY y) : LateY y := fun e he => by
  subst he
  obtain ⟨-, h⟩ := h
  cases ha : e.act <;> rw [ha] at h <;> first | rfl | exact absurd trivial h

theorem lateY_event {t : ℚ} {nm : String} {a : Act} (h : a.step = .late) : Emits LateY (GenM.event t nm a) := fun w => yields_event (fun e he => by cases he; exact h) w

theorem lateY_fire (C : Cfg) (n : String) (rule : CRule) (t : ℚ) : Emits LateY (genFire C n rule t) := by
  unfold genFire
  refine emits_bind emits_set fun _ => emits_bind emits_act fun comp => emits_bind emits_set fun _ => ?_
  have hrest : Emits LateY (do .set (fun w => { w with curSlots := w.noSlots }); .event t procName (.fired n); genRhs C n rule t : GenM Unit) :=
    emits_bind emits_set fun _ => emits_bind (lateY_event rfl) fun _ w => yields_mono (fun _ => lateY_of) (moduleY_rhs C n rule t w)
  rcases comp with _ | ⟨m, re⟩
  · exact hrest
  · exact emits_bind (lateY_event rfl) fun _ => hrest

theorem lateY_test (C : Cfg) (n : String) (rule : CRule) (t : ℚ) : Emits LateY (genTest C n rule t) := by
  unfold genTest
  refine emits_bind emits_lift fun lhs => emits_bind emits_act fun m => ?_
  cases m with
  | none => exact lateY_event rfl
  | some bv => exact emits_bind emits_set fun _ => lateY_fire C n rule t

/-- Once a rule is selected. -/
theorem late_selected (C : Cfg) (nm : String) (rule : CRule) (t : ℚ) :
    ∃ n, Late n (do GenM.event (t + C.ruleFiring) procName .unknown; genTest C nm rule (t + C.ruleFiring); GenM.yield .procs : GenM Unit) := by
  obtain ⟨n, hn⟩ := takes_selected C nm rule t
  have hlast : Emits LateY (GenM.yield .procs : GenM Unit) := fun w => ⟨(fun e he => by cases he), fun w => trivial⟩
  refine ⟨n, hn.brief, fun w => ?_, fun w => ?_⟩
  · exact moves_bind counts_trans (counts_event _ _ _ w) fun _ w => moves_bind counts_trans (counts_test C nm rule _ w) fun _ w => ⟨counts_refl w, fun w => counts_refl w⟩
  · exact emits_bind (P := LateY) (lateY_event rfl) (fun _ => emits_bind (lateY_test C nm rule _) fun _ => hlast) w

theorem removeProcedural_counts : ∀ l : List PItem, (removeProcedural l).countP PItem.isGen = l.countP PItem.isGen ∧ (removeProcedural l).countP (fun x => !x.isGen) = l.countP (fun x => !x.isGen) - 1
  | [] => ⟨rfl, rfl⟩
  | .procedural :: r => by unfold removeProcedural; simp [List.countP_cons, PItem.isGen]
  | .gen n i d :: r => by
    obtain ⟨h1, h2⟩ := removeProcedural_counts r
    unfold removeProcedural
    rw [List.countP_cons, List.countP_cons, List.countP_cons, List.countP_cons, h1, h2]
    exact ⟨rfl, rfl⟩

/-- The cycle begins. -/
theorem forked_procedural (C : Cfg) (t : ℚ) (w : Mach) : ∃ e k, genProcedural C t w = .yield { w with procs := w.procs ++ [.procedural], bv := BV.init } (.ev e) k ∧
    e.act = .conflict ∧ e.proc = procName ∧ ∀ w, Forked w (k w) := by
  refine ⟨_, _, rfl, rfl, rfl, fun w => ?_⟩
  show Forked w ((GenM.act (selectIn C) w).bind _)
  have hp : (selectIn C w).1.procs = w.procs := by
    unfold selectIn
    dsimp only
    split
    · rfl
    · rfl
    · split <;> rfl
  unfold GenM.act
  rcases hs : selectIn C w with ⟨w', e | sel⟩
  · rw [hs] at hp; exact hp
  · rw [hs] at hp
    rcases sel with _ | ⟨nm, rule⟩
    · obtain ⟨h1, h2⟩ := removeProcedural_counts w'.procs
      refine ⟨rfl, ?_, .inl ⟨rfl, ?_, fun w => ⟨_, rfl⟩⟩⟩
      · show (removeProcedural w'.procs).countP _ = _
        rw [h1, hp]
      · show (removeProcedural w'.procs).countP _ = _
        rw [h2, hp]; rfl
    · obtain ⟨n, hn⟩ := late_selected C nm rule t
      refine ⟨rfl, ?_, .inr ⟨rfl, counts_procs hp, n, ?_⟩⟩
      · show w'.procs.countP _ = _
        rw [hp]
      · exact hn

/-! ## Processes of modules and of the environment -/

theorem outlay_bind {f : SimM A} {g : A → SimM B} (hf : Outlay C N s n (f s).1) (hg : ∀ a, Charges C N m (g a)) : Outlay C N s (n + m) (SimM.bind f g s).1 := by
  unfold SimM.bind
  rcases h : f s with ⟨s1, e | a⟩
  · rw [h] at hf; exact outlay_le hf (by omega)
  · rw [h] at hf; exact outlay_trans hf (hg a s1 hf.1)

theorem charges_print {e : Ev} : Charges C N 0 (printEvent e) := by
  have h : Charges C N 0 (SimM.set fun s : Sim => { s with trace := s.trace ++ [(s.now, e)] }) :=
    charges_set fun s => ⟨⟨rfl, rfl, rfl, rfl, rfl, rfl, ⟨rfl, [(s.now, e)], rfl, fun x hx => by rw [List.mem_singleton.1 hx]⟩⟩, rfl, rfl, rfl⟩
  unfold printEvent
  split
  · exact charges_pure
  · exact h

theorem charges_activate {e : Ev} : Charges C N 12 (activateProc e) := fun s hs => by
  rcases activateProc_cases e with ha | ha <;> rw [ha]
  · exact outlay_le (outlay_refl hs) (by omega)
  · dsimp only
    split
    · exact outlay_le (outlay_refl hs) (by omega)
    · exact charges_succeed s hs

theorem charges_activate' {e : Ev} (he : e.proc = procName) : Charges C N 0 (activateProc e) := fun s hs => by
  have : activateProc e = pure () := by
    unfold activateProc
    split
    · rfl
    · exact if_pos he
  rw [this]
  exact outlay_refl hs

theorem charges_interaction : Charges C N 1 envInteraction := fun s hs => by
  have hforget : Charges C N 0 (SimM.set fun s : Sim => { s with w := { s.w with interaction := [] } }) :=
    charges_set fun s => ⟨⟨rfl, rfl, rfl, rfl, rfl, rfl, says_same rfl rfl⟩, rfl, rfl, rfl⟩
  unfold envInteraction
  split
  · exact outlay_le (outlay_refl hs) (by omega)
  · dsimp only
    split
    · exact outlay_bind (n := 1) (m := 0) (outlay_succeed hs hs.ne) fun _ => hforget
    · exact outlay_le (hforget s hs) (by omega)

/-- The state of the model changes, but not the list of processes. -/
theorem outlay_w (hs : Sane C s) {w : Mach} (hw : w.procs = s.w.procs) : Outlay C N s 0 { s with w := w } := by
  refine outlay_sameBut hs ⟨rfl, rfl, rfl, rfl, rfl, rfl, says_same rfl rfl⟩ rfl ?_ ?_
  · unfold pcount; rw [hw]
  · show 1167 * (w.procs.countP PItem.isGen + (s.started.getD []).countP PItem.isGen) ≤ 1167 * (s.w.procs.countP PItem.isGen + (s.started.getD []).countP PItem.isGen) + 0
    rw [hw]; omega

theorem ontoAt_localRun {name : String} {o : Out Mach YV Unit} (hn : name ≠ procName) (hs : Sane C s) (hb : Brief n o) (hm : o.Moves Leaves s.w) : OntoAt C N (14 * n + 1) (localRun name o) s := by
  cases o with
  | yield w y k =>
    have hw := outlay_w (N := N) hs hm.1
    cases y with
    | ev e =>
      obtain ⟨l, rfl, hk⟩ := hb
      have hlv := lives_le hk
      have hsound : Sound C (.localWait name e k) := ⟨fun h => absurd h hn, fun _ => ⟨⟨l, hk⟩, hm.2⟩⟩
      have hwt : wt (.localWait name e k) ≤ 14 * l + 14 := by
        show (if name = procName then _ else 14 * lives k + 14) ≤ _
        rw [if_neg hn]; omega
      refine ontoAt_bind (n := 0) (m := 14 * (l + 1) + 1) (f := SimM.set (fun s => { s with w := w })) hw (fun _ s1 _ h1 => ?_) |> fun h => ontoAt_le h (by omega)
      refine ontoAt_le ((onto_bind (n := 0) (m := 1 + (14 * l + 14)) charges_get fun now => onto_bind (n := 1) (m := 14 * l + 14) charges_timeout fun t => onto_le (onto_wait hsound ⟨if_neg hn, if_neg hn, fun _ => rfl⟩) hwt) s1 h1) (by omega)
    | cont d => exact ontoAt_le (ontoAt_bind (n := 0) (m := 0) (f := SimM.set (fun s => { s with w := w })) hw fun _ s1 _ h1 => onto_done s1 h1) (by omega)
    | procs => exact ontoAt_le (ontoAt_bind (n := 0) (m := 0) (f := SimM.set (fun s => { s with w := w })) hw fun _ s1 _ h1 => onto_done s1 h1) (by omega)
    | nothing => exact ontoAt_le (ontoAt_bind (n := 0) (m := 0) (f := SimM.set (fun s => { s with w := w })) hw fun _ s1 _ h1 => onto_done s1 h1) (by omega)
  | ret w a => exact ontoAt_le (ontoAt_bind (n := 0) (m := 0) (f := SimM.set (fun s => { s with w := w })) (outlay_w hs hm) fun _ s1 _ h1 => onto_done s1 h1) (by omega)
  | raise w x => exact ontoAt_le (ontoAt_bind (n := 0) (m := 0) (f := SimM.set (fun s => { s with w := w })) (outlay_w hs hm) fun _ s1 _ h1 => onto_throw s1 h1) (by omega)

theorem onto_localResume {name : String} {e : Ev} {k : Mach → Out Mach YV Unit} (hn : name ≠ procName) (hb : ∀ w, Brief n (k w)) (hm : ∀ w, (k w).Moves Leaves w) (x : Except PyErr SVal) :
    Onto C N (14 * n + 14) (localResume name e k x) := by
  unfold localResume
  split
  · exact onto_le onto_done (by omega)
  · exact onto_le onto_throw (by omega)
  · refine onto_le (onto_bind (n := 0) (m := 12 + (1 + (14 * n + 1))) charges_print fun _ => onto_bind (n := 12) (m := 1 + (14 * n + 1)) charges_activate fun _ =>
      onto_bind (n := 1) (m := 14 * n + 1) charges_interaction fun _ => ?_) (by omega)
    intro s hs
    exact ontoAt_trans (n := 0) (outlay_refl hs) (ontoAt_localRun hn hs (hb s.w) (hm s.w)) rfl |> fun h => ontoAt_le h (by omega)

theorem onto_afterMain {name : String} {pro : ℕ} (hn : name ≠ procName) (x : Except PyErr SVal) : Onto C N 578 (extraAfterMain C name pro x) := by
  unfold extraAfterMain
  split
  · refine onto_le (onto_bind (n := 0) (m := 1) charges_get fun over => ?_) (by omega)
    dsimp only
    split
    · exact onto_le (onto_extraLoop hn) (by omega)
    · exact onto_bind (n := 1) (m := 0) charges_interrupt fun _ => onto_extraLoop hn
  · exact onto_le onto_throw (by omega)
  · exact onto_le (onto_bind (n := 577) (m := 0) (charges_run C hn _) fun pro => onto_wait (pt := .extraCont name) hn ⟨rfl, rfl, fun _ => rfl⟩) (by omega)
  · exact onto_le (onto_extraLoop hn) (by omega)

theorem onto_afterCont {name : String} (hn : name ≠ procName) (x : Except PyErr SVal) : Onto C N 0 (extraAfterCont C name x) := by
  unfold extraAfterCont
  split
  · exact onto_extraLoop hn
  · exact onto_throw
  · exact onto_extraLoop hn

theorem onto_envProcStart {e : Ev} : Onto C N 13 (envProcStart e) := fun s hs => by
  have ht := charges_timeout (C := C) (N := N) (d := e.time - s.now) s hs
  rcases h : timeout (e.time - s.now) s with ⟨s1, x | t⟩
  · rw [h] at ht
    refine ontoAt_trans (n := 1) (m := 12) (g := do activateProc e; .throw x) ht (onto_bind (n := 12) (m := 0) charges_activate (fun _ => onto_throw) s1 ht.1) ?_
    unfold envProcStart; rw [h]
  · rw [h] at ht
    refine ontoAt_trans (n := 1) (m := 12) (g := pure (.wait t (.envProc e))) ht (onto_wait (pt := .envProc e) trivial ⟨rfl, rfl, fun _ => rfl⟩ s1 ht.1) ?_
    unfold envProcStart; rw [h]; rfl

theorem onto_envProcResume {e : Ev} (x : Except PyErr SVal) : Onto C N 12 (envProcResume e x) := by
  unfold envProcResume
  split
  · exact onto_bind (n := 12) (m := 0) charges_activate fun _ => onto_done
  · exact onto_bind (n := 12) (m := 0) charges_activate fun _ => onto_throw
  · exact onto_le (onto_bind (n := 0) (m := 12) charges_print fun _ => onto_bind (n := 12) (m := 0) charges_activate fun _ => onto_done) (by omega)

theorem onto_spins (n : ℕ) : Onto C N (n + 7) (procSpins n) := onto_le (onto_bind (n := 1) (m := n + 6) charges_timeout fun t => onto_wait (pt := .procSpin n) trivial ⟨rfl, rfl, fun _ => rfl⟩) (by omega)

theorem onto_cycle {pt : Pt} (h : Sound C pt) (hl : Light pt) : Onto C N (6 + wt pt) (procCycle C pt) := by
  unfold procCycle
  refine onto_le (onto_bind (n := 0) (m := 6 + wt pt) charges_get fun now => onto_bind (n := 6) (m := wt pt) ?_ fun pro => onto_wait h hl) (by omega)
  have : wt (.localNew procName (genProcedural C now)) = 4 := by simp [wt]
  exact charges_le (charges_process ⟨fun _ => ⟨now, rfl⟩, fun h => absurd rfl h⟩ rfl rfl rfl) (by omega)

/-- Places that have nothing to do with rules, and are not those of the environment. -/
def Cheap : Pt → Prop
  | .localNew name _ | .localWait name _ _ => name ≠ procName
  | .procFirst | .procAgain | .envNew | .envWait _ _ => False
  | _ => True

/-- What is to be added when the process is woken. -/
def extraPay : Pt → ℕ
  | .procIdle => 11
  | _ => 0

/-- All other processes. -/
theorem onto_code {pt : Pt} (hc : Cheap pt) (hs : Sound C pt) (x : Except PyErr SVal) : Onto C N (wt pt + match x with | .ok _ => extraPay pt | .error _ => 0) (code C pt x) := by
  cases pt with
  | procNew => cases x with
    | error e => exact onto_le onto_throw (by omega)
    | ok v => exact onto_cycle (pt := .procFirst) trivial ⟨rfl, rfl, fun _ => rfl⟩
  | procFirst => exact hc.elim
  | procIdle => cases x with
    | error e => exact onto_le onto_throw (by omega)
    | ok v => exact onto_spins 4
  | procSpin n => cases x with
    | error e => exact onto_le onto_throw (by omega)
    | ok v => cases n with
      | zero => exact onto_cycle (pt := .procAgain) trivial ⟨rfl, rfl, fun _ => rfl⟩
      | succ n => exact onto_le (onto_spins n) (by simp only [wt]; omega)
  | procAgain => exact hc.elim
  | extraNew name => cases x with
    | error e => exact onto_throw
    | ok v => exact onto_extraLoop hs
  | extraIdle name => cases x with
    | error e => exact onto_throw
    | ok v => exact onto_bind (n := 0) (m := 0) charges_renew fun _ => onto_extraLoop hs
  | extraMain name pro =>
    refine onto_le (onto_afterMain hs x) ?_
    simp only [wt]; omega
  | extraCont name => exact onto_le (onto_afterCont hs x) (by omega)
  | localNew name g =>
    obtain ⟨⟨k, hk⟩, hm⟩ := hs.2 hc
    have hw : wt (.localNew name g) = 14 * lives g + 15 := if_neg hc
    cases x with
    | error e => exact onto_le onto_throw (by omega)
    | ok v =>
      refine onto_le ?_ (n := 14 * lives g + 1) (by rw [hw]; omega)
      intro s hs'
      exact ontoAt_trans (n := 0) (outlay_refl hs') (ontoAt_localRun hc hs' (brief_lives hk s.w) (hm s.w)) rfl |> fun h => ontoAt_le h (by omega)
  | localWait name e k =>
    obtain ⟨⟨n, hk⟩, hm⟩ := hs.2 hc
    have hw : wt (.localWait name e k) = 14 * lives k + 14 := if_neg hc
    exact onto_le (onto_localResume hc (brief_lives hk) hm x) (by rw [hw]; omega)
  | envNew => exact hc.elim
  | envWait pro k => exact hc.elim
  | envProcNew e => cases x with
    | error e => exact onto_le onto_throw (by omega)
    | ok v => exact onto_envProcStart
  | envProc e => exact onto_le (onto_envProcResume x) (by simp only [wt]; omega)

end Verif
