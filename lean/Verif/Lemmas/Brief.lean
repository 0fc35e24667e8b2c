import Verif.Lemmas.Machine
/-! # Generators come to an end -/
namespace Verif
open Verif.Spec

variable {A B : Type} {m n : ℕ}

/-- A generator that ends after at most `n` events, whatever happens in between. -/
def Brief : ℕ → Out Mach YV A → Prop
  | n, .yield _ (.ev _) k => ∃ m, n = m + 1 ∧ ∀ w, Brief m (k w)
  | _, _ => True

theorem brief_le {o : Out Mach YV A} : ∀ {n m : ℕ}, Brief n o → n ≤ m → Brief m o := by
  induction o with
  | yield w y k ih =>
    intro n m h hl
    cases y with
    | ev e =>
      obtain ⟨n', rfl, h'⟩ := h
      obtain ⟨m', rfl⟩ : ∃ m', m = m' + 1 := ⟨m - 1, by omega⟩
      exact ⟨m', rfl, fun w => ih w (h' w) (by omega)⟩
    | cont d => trivial
    | procs => trivial
    | nothing => trivial
  | ret w a => intros; trivial
  | raise w e => intros; trivial

theorem brief_bind {f : A → GenM B} {m : ℕ} (hf : ∀ a w, Brief m (f a w)) {o : Out Mach YV A} : ∀ {n : ℕ}, Brief n o → Brief (n + m) (o.bind f) := by
  induction o with
  | yield w y k ih =>
    intro n h
    cases y with
    | ev e =>
      obtain ⟨n', rfl, h'⟩ := h
      exact ⟨n' + m, by omega, fun w => ih w (h' w)⟩
    | cont d => trivial
    | procs => trivial
    | nothing => trivial
  | ret w a => intro n _; exact brief_le (hf a w) (Nat.le_add_left _ _)
  | raise w e => intros; trivial

/-- The same for a piece of code that yields events. -/
structure Takes (n : ℕ) (g : GenM A) : Prop where
  brief : ∀ w, Brief n (g w)

theorem takes_le {g : GenM A} (h : Takes n g) (hl : n ≤ m) : Takes m g := ⟨fun w => brief_le (h.brief w) hl⟩
theorem takes_bind {g : GenM A} {f : A → GenM B} (hg : Takes m g) (hf : ∀ a, Takes n (f a)) : Takes (n + m) (g >>= f) :=
  ⟨fun w => by rw [Nat.add_comm]; exact brief_bind (fun a => (hf a).brief) (hg.brief w)⟩
theorem takes_event {t : ℚ} {nm : String} {a : Act} : Takes (n + 1) (GenM.event t nm a) := ⟨fun _ => ⟨n, rfl, fun _ => trivial⟩⟩
theorem takes_cont {d : Desc} : Takes n (GenM.yield (.cont d)) := ⟨fun _ => trivial⟩
theorem takes_nothing : Takes n (GenM.yield .nothing) := ⟨fun _ => trivial⟩
theorem takes_procs : Takes n (GenM.yield .procs) := ⟨fun _ => trivial⟩
theorem takes_set {f : Mach → Mach} : Takes n (GenM.set f) := ⟨fun _ => trivial⟩
theorem takes_get {f : Mach → A} : Takes n (GenM.get f) := ⟨fun _ => trivial⟩
theorem takes_act {f : Mach → Mach × Except PyErr A} : Takes n (GenM.act f) := ⟨fun w => by
  unfold GenM.act
  rcases f w with ⟨w', e | a⟩ <;> trivial⟩
theorem takes_lift {x : Except PyErr A} : Takes n (GenM.lift x) := takes_act
theorem takes_throw {e : PyErr} : Takes n (GenM.throw e : GenM A) := ⟨fun _ => trivial⟩
theorem takes_pure {a : A} : Takes n (Pure.pure a : GenM A) := ⟨fun _ => trivial⟩
theorem takes_free {g : GenM A} {f : A → GenM B} (hg : Takes 0 g) (hf : ∀ a, Takes n (f a)) : Takes n (g >>= f) := takes_bind hg hf
theorem takes_one {f : Unit → GenM B} {t : ℚ} {nm : String} {a : Act} (hf : ∀ a, Takes n (f a)) : Takes (n + 1) (GenM.event t nm a >>= f) := takes_bind (takes_event (n := 0)) hf
theorem takes_five {g : GenM A} {f : A → GenM B} (hg : Takes 5 g) (hf : ∀ a, Takes n (f a)) : Takes (n + 5) (g >>= f) := takes_bind hg hf

/-- Steps of the proofs below: the parts of a generator one by one. -/
macro "takes" : tactic => `(tactic| repeat' with_reducible first
  | assumption
  | exact takes_event | exact takes_nothing | exact takes_set | exact takes_get | exact takes_act | exact takes_lift | exact takes_throw | exact takes_pure
  | exact takes_cont
  | refine takes_one fun _ => ?_
  | refine takes_free takes_set fun _ => ?_ | refine takes_free takes_get fun _ => ?_ | refine takes_free takes_act fun _ => ?_ | refine takes_free takes_lift fun _ => ?_
  | split)

theorem takes_clear (C : Cfg) (nm : String) (v : RVal) (t : ℚ) (f : Bool) : Takes 1 (genClear C nm v t f) := by unfold genClear; takes
theorem takes_extraTest (nm : String) (v : RVal) (t : ℚ) : Takes 1 (genExtraTest nm v t) := by unfold genExtraTest; takes
theorem takes_execute (C : Cfg) (nm : String) (v : RVal) (t : ℚ) : Takes 1 (genExecute C nm v t) := by unfold genExecute; takes
theorem takes_recordModify (C : Cfg) (nm : String) (c : Chunk) : Takes 0 (recordModify C nm c) := by unfold recordModify; takes
theorem takes_recordSet (C : Cfg) (nm : String) (c : Chunk) : Takes 0 (recordSet C nm c) := by unfold recordSet; takes
theorem takes_recordRetrieved (C : Cfg) (nm : String) (c : Chunk) (r : Option Chunk) : Takes 0 (recordRetrieved C nm c r) := by unfold recordRetrieved; takes
theorem takes_modify (C : Cfg) (nm : String) (v : RVal) (bv : BV) (t : ℚ) : Takes 1 (genModify C nm v bv t) := by
  unfold genModify
  refine takes_free takes_set fun _ => takes_free takes_lift fun c => takes_free (takes_recordModify C nm c) fun _ => ?_
  takes
theorem takes_modifyRequest (C : Cfg) (nm : String) (v : RVal) (bv : BV) (t : ℚ) : Takes 2 (genModifyRequest C nm v bv t) := by
  unfold genModifyRequest
  refine takes_free takes_set fun _ => takes_free takes_get fun d => takes_one fun _ => takes_free takes_lift fun c => takes_free (takes_recordModify C nm c) fun _ => ?_
  takes
theorem takes_overwrite (C : Cfg) (nm : String) (v : RVal) (bv : BV) (t : ℚ) : Takes 2 (genOverwrite C nm v bv t) := by
  unfold genOverwrite
  refine takes_free takes_set fun _ => takes_free takes_get fun d => takes_one fun _ => takes_free takes_lift fun c => takes_free (takes_recordSet C nm c) fun _ => ?_
  takes
theorem takes_setGoal (C : Cfg) (nm : String) (v : RVal) (bv : BV) (t : ℚ) : Takes 3 (genSetGoal C nm v bv t) := by
  unfold genSetGoal
  refine takes_bind (n := 2) (takes_clear C nm v t false) fun _ => takes_free takes_get fun d => takes_one fun _ => takes_free takes_lift fun c => takes_free (takes_recordSet C nm c) fun _ => ?_
  takes
theorem takes_retrieve (C : Cfg) (nm : String) (v : RVal) (bv : BV) (t : ℚ) : Takes 8 (genRetrieve C nm v bv t) := by
  unfold genRetrieve
  refine takes_one fun _ => takes_free takes_lift fun c => takes_free takes_act fun r => takes_one fun _ => ?_
  have h1 : Takes 1 (do recordRetrieved C nm c r.1; GenM.event (t + r.2) nm (.retrieved r.1)) := takes_free (takes_recordRetrieved C nm c r.1) fun _ => takes_event
  split
  · exact takes_free takes_set fun _ => takes_le h1 (by norm_num)
  · exact takes_one fun _ => takes_free takes_act fun _ => takes_free takes_set fun _ => takes_le h1 (by norm_num)
theorem takes_findLocation (C : Cfg) (nm : String) (v : RVal) (bv : BV) (t : ℚ) : Takes 8 (genFindLocation C nm v bv t) := by
  unfold genFindLocation
  refine takes_one fun _ => takes_free takes_lift fun c => takes_free takes_act fun r => ?_
  split
  · split
    · takes
    · refine takes_bind (n := 6) (takes_clear C nm .nothing t false) fun _ => ?_
      takes
  · takes
theorem takes_visualencode (C : Cfg) (nm : String) (c : Chunk) (t e : ℚ) (site : ℚ × ℚ) : Takes 5 (genVisualencode C nm c t e site) := by
  unfold genVisualencode
  refine takes_free takes_set fun _ => takes_free takes_set fun _ => takes_bind (n := 4) (takes_clear C nm .nothing (t + e) false) fun _ => ?_
  takes
theorem takes_visualshift (C : Cfg) (nm : String) (v : RVal) (bv : BV) (t : ℚ) : Takes 38 (genVisualshift C nm v bv t) := by
  unfold genVisualshift
  refine takes_free takes_lift fun c => takes_free takes_act fun s => takes_free takes_set fun _ => takes_one fun _ => ?_
  by_cases h1 : s.2.1.1 ≤ s.2.1.2.1 <;> by_cases h2 : s.2.1.2.1 < s.2.1.1 ∧ s.2.1.1 ≤ s.2.1.2.1 + s.2.1.2.2 <;> simp only [h1, h2, if_true, if_false]
  · exact takes_five (takes_visualencode ..) fun _ => takes_one fun _ => takes_five (takes_visualencode ..) fun _ => takes_cont
  · exact takes_five (takes_visualencode ..) fun _ => takes_one fun _ => takes_cont
  · exact takes_one fun _ => takes_five (takes_visualencode ..) fun _ => takes_cont
  · exact takes_one fun _ => takes_cont
theorem takes_visualcontinue (C : Cfg) (nm : String) (c : Chunk) (bv : BV) (t : ℚ) (times : ℚ × ℚ × ℚ) (site : ℚ × ℚ) : Takes 10 (genVisualcontinue C nm c bv t times site) := by
  unfold genVisualcontinue
  refine takes_free takes_set fun _ => takes_free takes_get fun last => takes_free takes_set fun _ => takes_one fun _ => takes_free takes_set fun _ => takes_free takes_get fun f => takes_one fun _ => ?_
  split
  · refine takes_free takes_act fun s => ?_
    split
    · exact takes_free takes_throw fun _ => takes_set
    · exact takes_five (takes_visualencode ..) fun _ => takes_set
  · takes
theorem takes_visual (C : Cfg) (nm : String) (v : RVal) (bv : BV) (t : ℚ) : Takes 40 (genVisual C nm v bv t) := by
  unfold genVisual
  refine takes_free takes_lift fun c => takes_free takes_lift fun mods => ?_
  split
  · takes
  · split
    · takes
    · split
      · exact takes_bind (n := 2) (takes_visualshift ..) fun _ => takes_nothing
      · takes
theorem takes_autoSearch (C : Cfg) (nm : String) (l : List Stim) (t : ℚ) : Takes 4 (genAutoSearch C nm l t) := by unfold genAutoSearch; takes
theorem takes_autoBuffer (C : Cfg) (nm : String) (l : List Stim) (t : ℚ) : Takes 4 (genAutoBuffer C nm l t) := by unfold genAutoBuffer; takes
theorem takes_motorset (C : Cfg) (nm : String) (v : RVal) (bv : BV) (t : ℚ) : Takes 30 (genMotorset C nm v bv t) := by unfold genMotorset; takes
theorem takes_motorcontinue (nm key : String) (t : ℚ) (pr : ℚ × ℚ × ℚ × ℚ) : Takes 10 (genMotorcontinue nm key t pr) := by unfold genMotorcontinue; takes
theorem takes_retrieveorset (C : Cfg) (nm : String) (v : RVal) (bv : BV) (t : ℚ) : Takes 40 (genRetrieveorset C nm v bv t) := by
  unfold genRetrieveorset
  refine takes_free takes_set fun _ => takes_free takes_get fun cls => ?_
  split
  · exact takes_le (takes_setGoal ..) (by norm_num)
  · exact takes_le (takes_findLocation ..) (by norm_num)
  · exact takes_visual ..
  · exact takes_bind (n := 10) (takes_motorset ..) fun _ => takes_nothing
  · exact takes_le (takes_retrieve ..) (by norm_num)
  · exact takes_throw

/-- Whatever modules do comes to an end. -/
theorem takes_run (C : Cfg) (d : Desc) : Takes 40 (d.run C) := by
  cases d with
  | retrieveorset n v bv t => exact takes_retrieveorset ..
  | modifyRequest n v bv t => exact takes_le (takes_modifyRequest ..) (by norm_num)
  | clear n bv t => exact takes_le (takes_clear ..) (by norm_num)
  | autoSearch n s t => exact takes_le (takes_autoSearch ..) (by norm_num)
  | autoBuffer n s t => exact takes_le (takes_autoBuffer ..) (by norm_num)
  | visualContinue n c bv t ts st => exact takes_le (takes_visualcontinue ..) (by norm_num)
  | motorContinue n k t pr => exact takes_le (takes_motorcontinue ..) (by norm_num)

/-! ## Rules -/

theorem takes_immediate (C : Cfg) (k : Key) (v : RVal) (bv : BV) (t : ℚ) : Takes 2 (immediate C k v bv t) := by
  unfold immediate
  split_ifs
  · exact takes_le (takes_extraTest ..) (by norm_num)
  · exact takes_le (takes_execute ..) (by norm_num)
  · exact takes_le (takes_modify ..) (by norm_num)
  · exact takes_overwrite ..
  · exact takes_le (takes_clear ..) (by norm_num)

theorem takes_updateLoop (C : Cfg) (t : ℚ) : ∀ (l : List (Key × RVal)) (temp : BV), Takes (2 * l.length) (updateLoop C t l temp)
  | [], temp => takes_pure
  | (k, v) :: r, temp => by
    unfold updateLoop
    refine takes_free takes_act fun _ => takes_free takes_get fun bv => takes_free takes_set fun _ => ?_
    have h := takes_updateLoop C t r (temp.popVar k.name)
    split
    · exact takes_free takes_set fun _ => takes_le h (by simp)
    · exact takes_le (takes_bind (takes_immediate C k v bv t) fun _ => h) (by simp; omega)

theorem takes_update (C : Cfg) (t : ℚ) (rhs : List (Key × RVal)) : ∃ n, Takes n (genUpdate C rhs t) := by
  unfold genUpdate
  cases hs : sortRhs rhs with
  | error e => exact ⟨0, takes_free takes_get fun _ => ⟨fun w => trivial⟩⟩
  | ok l =>
    refine ⟨2 * l.length, takes_free takes_get fun temp => ⟨fun w => ?_⟩⟩
    exact (takes_bind (n := 0) (takes_updateLoop C t l temp) fun left => takes_set (f := fun w => if C.strict then harvestAll t left.keyNames w else w)).brief w |> fun h => by simpa using h

theorem takes_rhs (C : Cfg) (nm : String) (rule : CRule) (t : ℚ) : ∃ n, Takes n (genRhs C nm rule t) := by
  unfold genRhs
  cases hr : rule.body.rhs with
  | error e => exact ⟨0, ⟨fun w => trivial⟩⟩
  | ok rhs =>
    obtain ⟨n, hn⟩ := takes_update C t rhs
    exact ⟨0 + n, ⟨fun w => (takes_bind hn fun _ => takes_set).brief w⟩⟩

theorem takes_fire (C : Cfg) (nm : String) (rule : CRule) (t : ℚ) : ∃ n, Takes n (genFire C nm rule t) := by
  obtain ⟨n, hn⟩ := takes_rhs C nm rule t
  refine ⟨n + 2, ?_⟩
  unfold genFire
  refine takes_free takes_set fun _ => takes_free takes_act fun comp => takes_free takes_set fun _ => ?_
  split
  · exact takes_one fun _ => takes_free takes_set fun _ => takes_one fun _ => hn
  · exact takes_free takes_set fun _ => takes_one fun _ => takes_le hn (Nat.le_succ n)

theorem takes_test (C : Cfg) (nm : String) (rule : CRule) (t : ℚ) : ∃ n, Takes n (genTest C nm rule t) := by
  obtain ⟨n, hn⟩ := takes_fire C nm rule t
  refine ⟨n + 1, ?_⟩
  unfold genTest
  refine takes_free takes_lift fun lhs => takes_free takes_act fun m => ?_
  split
  · exact takes_event
  · exact takes_free takes_set fun _ => takes_le hn (by omega)

/-- After a rule has been selected. -/
theorem takes_selected (C : Cfg) (nm : String) (rule : CRule) (t : ℚ) :
    ∃ n, Takes n (do GenM.event (t + C.ruleFiring) procName .unknown; genTest C nm rule (t + C.ruleFiring); GenM.yield .procs : GenM Unit) := by
  obtain ⟨n, hn⟩ := takes_test C nm rule (t + C.ruleFiring)
  exact ⟨(0 + n) + 1, takes_one fun _ => takes_bind hn fun _ => takes_procs⟩

/-! ## The environment -/

/-- The same for the environment. -/
def EnvBrief {W : Type} : ℕ → Out W EnvEvent Unit → Prop
  | n, .yield _ _ k => ∃ m, n = m + 1 ∧ ∀ w, EnvBrief m (k w)
  | _, _ => True

theorem envBrief_loop {W : Type} (upd : Env → W → W) (get : W → Env) : ∀ (l : List Screen) (i : ℕ) (t : ℚ) (w : W), EnvBrief l.length (envLoop upd get i t l w)
  | [], _, _, _ => by rw [envLoop.eq_def]; trivial
  | s :: r, i, t, w => by
    rw [envLoop.eq_def]
    dsimp only
    split
    · trivial
    · split
      · trivial
      · exact ⟨r.length, rfl, fun w' => envBrief_loop upd get r _ _ w'⟩

end Verif
