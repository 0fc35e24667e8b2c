import Verif.Lemmas.Gen
import Verif.Lemmas.Rounding
import Verif.Spec.Simulation
/-! # What the processes of modules yield -/
namespace Verif
open Verif.Spec

variable {A B : Type} {P : YV → Prop}

/-- All that a generator yields satisfies `P`. -/
def Emits (P : YV → Prop) {A : Type} (g : GenM A) : Prop := ∀ w, (g w).Yields P

theorem emits_bind {g : GenM A} {f : A → GenM B} (hg : Emits P g) (hf : ∀ a, Emits P (f a)) : Emits P (g >>= f) :=
  fun w => yields_bind (hg w) fun a w => hf a w
theorem emits_pure {a : A} : Emits P (Pure.pure a : GenM A) := fun _ => trivial
theorem emits_pure' {a : A} : Emits P (GenM.pure a : GenM A) := fun _ => trivial
theorem emits_throw {e : PyErr} : Emits P (GenM.throw e : GenM A) := fun _ => trivial
theorem emits_set {f : Mach → Mach} : Emits P (GenM.set f) := fun _ => trivial
theorem emits_get {f : Mach → A} : Emits P (GenM.get f) := fun _ => trivial
theorem emits_act {f : Mach → Mach × Except PyErr A} : Emits P (GenM.act f) := fun w => yields_act f w
theorem emits_lift {x : Except PyErr A} : Emits P (GenM.lift x) := fun w => yields_act _ w
theorem emits_event {t : ℚ} {n : String} {a : Act} (h : P (.ev ⟨round4 t, n, a⟩)) : Emits P (GenM.event t n a) := fun _ => ⟨h, fun _ => trivial⟩
theorem emits_yield {y : YV} (h : P y) : Emits P (GenM.yield y) := fun _ => ⟨h, fun _ => trivial⟩

theorem onGrid_round4 (q : ℚ) : OnGrid (round4 q) := ⟨_, rfl⟩

theorem round4_onGrid {q : ℚ} (h : OnGrid q) : round4 q = q := by obtain ⟨k, rfl⟩ := h; exact round4_of_int k

/-- Events on the grid. -/
def GridY : YV → Prop
  | .ev e => OnGrid e.time
  | _ => True

/-- What modules yield: events on the grid, no reports about rules, not the list of processes. -/
def ModuleY : YV → Prop
  | .ev e => OnGrid e.time ∧ ¬ Cyclic e.act
  | .procs => False
  | _ => True

theorem moduleY_grid {y : YV} (h : ModuleY y) : GridY y := by cases y <;> first | exact h.1 | trivial

theorem yields_mono {W Y : Type} {P Q : Y → Prop} (h : ∀ y, P y → Q y) {o : Out W Y A} (ho : o.Yields P) : o.Yields Q := by
  induction o with
  | yield w y k ih => exact ⟨h y ho.1, fun w' => ih w' (ho.2 w')⟩
  | ret w r => trivial
  | raise w e => trivial

/-- `Cyclic` as a test. -/
def cyclicB : Act → Bool
  | .conflict => true
  | .selected _ => true
  | .stopped _ => true
  | .compiled _ _ => true
  | .fired _ => true
  | .noRule => true
  | _ => false

theorem moduleY_cont (d : Desc) : ModuleY (.cont d) := trivial
theorem gridY_cont (d : Desc) : GridY (.cont d) := trivial
theorem moduleY_nothing : ModuleY .nothing := trivial
theorem gridY_nothing : GridY .nothing := trivial
theorem gridY_procs : GridY .procs := trivial

theorem moduleY_event (t : ℚ) (n : String) {a : Act} (h : cyclicB a = false) : ModuleY (.ev ⟨round4 t, n, a⟩) :=
  ⟨onGrid_round4 _, fun hc => by cases a <;> first | exact hc | exact absurd h (by simp [cyclicB])⟩
theorem gridY_event (t : ℚ) (n : String) (a : Act) : GridY (.ev ⟨round4 t, n, a⟩) := onGrid_round4 _
macro "emit" : tactic => `(tactic| repeat' with_reducible first
  | exact emits_event (moduleY_event _ _ rfl)
  | exact emits_event (gridY_event _ _ _)
  | exact emits_yield (moduleY_cont _) | exact emits_yield (gridY_cont _) | exact emits_yield gridY_procs
  | exact emits_yield moduleY_nothing | exact emits_yield gridY_nothing
  | exact emits_get | exact emits_lift | exact emits_throw | exact emits_pure | exact emits_pure' | exact emits_set | exact emits_act
  | assumption
  | refine emits_bind ?_ fun _ => ?_
  | split)

theorem moduleY_clear (C : Cfg) (n : String) (v : RVal) (t : ℚ) (f : Bool) : Emits ModuleY (genClear C n v t f) := by unfold genClear; emit
theorem moduleY_extraTest (n : String) (v : RVal) (t : ℚ) : Emits ModuleY (genExtraTest n v t) := by unfold genExtraTest; emit
theorem moduleY_execute (C : Cfg) (n : String) (v : RVal) (t : ℚ) : Emits ModuleY (genExecute C n v t) := by unfold genExecute; emit
theorem moduleY_modify (C : Cfg) (n : String) (v : RVal) (bv : BV) (t : ℚ) : Emits ModuleY (genModify C n v bv t) := by
  unfold genModify recordModify; emit
theorem moduleY_modifyRequest (C : Cfg) (n : String) (v : RVal) (bv : BV) (t : ℚ) : Emits ModuleY (genModifyRequest C n v bv t) := by
  unfold genModifyRequest recordModify; emit
theorem moduleY_overwrite (C : Cfg) (n : String) (v : RVal) (bv : BV) (t : ℚ) : Emits ModuleY (genOverwrite C n v bv t) := by
  unfold genOverwrite recordSet; emit
theorem moduleY_setGoal (C : Cfg) (n : String) (v : RVal) (bv : BV) (t : ℚ) : Emits ModuleY (genSetGoal C n v bv t) := by
  have h := moduleY_clear C n v t false
  unfold genSetGoal recordSet; emit
theorem moduleY_retrieve (C : Cfg) (n : String) (v : RVal) (bv : BV) (t : ℚ) : Emits ModuleY (genRetrieve C n v bv t) := by
  unfold genRetrieve recordRetrieved; emit
theorem moduleY_findLocation (C : Cfg) (n : String) (v : RVal) (bv : BV) (t : ℚ) : Emits ModuleY (genFindLocation C n v bv t) := by
  have h := moduleY_clear C n .nothing t false
  unfold genFindLocation; emit
theorem moduleY_visualencode (C : Cfg) (n : String) (c : Chunk) (t x : ℚ) (s : ℚ × ℚ) : Emits ModuleY (genVisualencode C n c t x s) := by
  have h := moduleY_clear C n .nothing (t + x) false
  unfold genVisualencode; emit
theorem moduleY_visualshift (C : Cfg) (n : String) (v : RVal) (bv : BV) (t : ℚ) : Emits ModuleY (genVisualshift C n v bv t) := by
  have h := fun c t x s => moduleY_visualencode C n c t x s
  unfold genVisualshift
  repeat' with_reducible first | exact h _ _ _ _ | (emit; done) | refine emits_bind ?_ fun _ => ?_ | split
theorem moduleY_visualcontinue (C : Cfg) (n : String) (c : Chunk) (bv : BV) (t : ℚ) (ts : ℚ × ℚ × ℚ) (s : ℚ × ℚ) :
    Emits ModuleY (genVisualcontinue C n c bv t ts s) := by
  have h := fun c t x s => moduleY_visualencode C n c t x s
  unfold genVisualcontinue
  repeat' with_reducible first | exact h _ _ _ _ | (emit; done) | refine emits_bind ?_ fun _ => ?_ | split
theorem moduleY_visual (C : Cfg) (n : String) (v : RVal) (bv : BV) (t : ℚ) : Emits ModuleY (genVisual C n v bv t) := by
  have h := moduleY_visualshift C n v bv t
  unfold genVisual; emit
theorem moduleY_autoSearch (C : Cfg) (n : String) (s : List Stim) (t : ℚ) : Emits ModuleY (genAutoSearch C n s t) := by unfold genAutoSearch; emit
theorem moduleY_autoBuffer (C : Cfg) (n : String) (s : List Stim) (t : ℚ) : Emits ModuleY (genAutoBuffer C n s t) := by unfold genAutoBuffer; emit
theorem moduleY_motorset (C : Cfg) (n : String) (v : RVal) (bv : BV) (t : ℚ) : Emits ModuleY (genMotorset C n v bv t) := by unfold genMotorset; emit
theorem moduleY_motorcontinue (n : String) (k : String) (t : ℚ) (pr : ℚ × ℚ × ℚ × ℚ) : Emits ModuleY (genMotorcontinue n k t pr) := by
  unfold genMotorcontinue; emit
theorem moduleY_retrieveorset (C : Cfg) (n : String) (v : RVal) (bv : BV) (t : ℚ) : Emits ModuleY (genRetrieveorset C n v bv t) := by
  have h1 := moduleY_setGoal C n v bv t
  have h2 := moduleY_retrieve C n v bv t
  have h3 := moduleY_motorset C n v bv t
  have h4 := moduleY_visual C n v bv t
  have h5 := moduleY_findLocation C n v bv t
  unfold genRetrieveorset; emit

/-- All processes of modules. -/
theorem moduleY_run (C : Cfg) (d : Desc) : Emits ModuleY (d.run C) := by
  cases d with
  | retrieveorset n v bv t => exact fun w => moduleY_retrieveorset ..
  | modifyRequest n v bv t => exact fun w => moduleY_modifyRequest ..
  | clear n bv t => exact fun w => moduleY_clear ..
  | autoSearch n s t => exact fun w => moduleY_autoSearch ..
  | autoBuffer n s t => exact fun w => moduleY_autoBuffer ..
  | visualContinue n c bv t ts s => exact fun w => moduleY_visualcontinue ..
  | motorContinue n k t pr => exact fun w => moduleY_motorcontinue ..

theorem moduleY_immediate (C : Cfg) (k : Key) (v : RVal) (bv : BV) (t : ℚ) : Emits ModuleY (immediate C k v bv t) := by
  unfold immediate
  split_ifs
  · exact fun w => moduleY_extraTest ..
  · exact fun w => moduleY_execute ..
  · exact fun w => moduleY_modify ..
  · exact fun w => moduleY_overwrite ..
  · exact fun w => moduleY_clear ..

theorem moduleY_updateLoop (C : Cfg) (t : ℚ) : ∀ l temp, Emits ModuleY (updateLoop C t l temp)
  | [], _ => emits_pure'
  | (k, v) :: r, temp => by
    have h := moduleY_updateLoop C t r (temp.popVar k.name)
    have h2 := fun bv => moduleY_immediate C k v bv t
    simp only [updateLoop]
    repeat' with_reducible first | exact h2 _ | (emit; done) | refine emits_bind ?_ fun _ => ?_ | split

theorem moduleY_update (C : Cfg) (rhs : List (Key × RVal)) (t : ℚ) : Emits ModuleY (genUpdate C rhs t) := by
  have h := fun l temp => moduleY_updateLoop C t l temp
  unfold genUpdate
  repeat' with_reducible first | exact h _ _ | (emit; done) | refine emits_bind ?_ fun _ => ?_ | split

theorem moduleY_rhs (C : Cfg) (n : String) (rule : CRule) (t : ℚ) : Emits ModuleY (genRhs C n rule t) := by
  have h := fun rhs => moduleY_update C rhs t
  unfold genRhs
  repeat' with_reducible first | exact h _ | (emit; done) | refine emits_bind ?_ fun _ => ?_ | split

/-- The process of the rules. -/
theorem gridY_procedural (C : Cfg) (t : ℚ) : Emits GridY (genProcedural C t) := by
  have h : ∀ n rule t, Emits GridY (genRhs C n rule t) := fun n rule t w => yields_mono (fun _ => moduleY_grid) (moduleY_rhs C n rule t w)
  have h2 : ∀ n rule t, Emits GridY (genFire C n rule t) := fun n rule t => by
    unfold genFire
    repeat' with_reducible first | exact h _ _ _ | (emit; done) | refine emits_bind ?_ fun _ => ?_ | split
  have h3 : ∀ n rule t, Emits GridY (genTest C n rule t) := fun n rule t => by
    unfold genTest
    repeat' with_reducible first | exact h2 _ _ _ | (emit; done) | refine emits_bind ?_ fun _ => ?_ | split
  have h4 : ∀ n rule, Emits GridY (genSelected C n rule t) := fun n rule => by
    unfold genSelected
    repeat' with_reducible first | exact h3 _ _ _ | (emit; done) | refine emits_bind ?_ fun _ => ?_ | split
  unfold genProcedural
  repeat' with_reducible first | exact h4 _ _ | (emit; done) | refine emits_bind ?_ fun _ => ?_ | split

/-- The environment. -/
theorem gridY_env {W : Type} (upd : Env → W → W) (get : W → Env) (upper : String → String) (a : StimArg) (b : TrigArg) (c : EnvTimes) (t : ℚ) (w : W) :
    (envProcess upd get upper a b c t w).Yields (fun e => OnGrid e.1) := by
  have h : ∀ l i time w, (envLoop upd get i time l w).Yields (fun e => OnGrid e.1) := by
    intro l
    induction l with
    | nil => intro i time w; trivial
    | cons s r ih =>
      intro i time w
      simp only [envLoop]
      split
      · trivial
      · split
        · trivial
        · exact ⟨onGrid_round4 _, fun w' => ih _ _ w'⟩
  unfold envProcess
  dsimp only
  split
  · trivial
  · exact ⟨onGrid_round4 _, fun w' => h _ _ _ w'⟩

end Verif
