import Verif.Lemmas.Blameless
import Verif.Lemmas.Yields
import Verif.Lemmas.Repertoire
import Verif.Lemmas.Compile
import Verif.Spec.Strike
/-! # Generators do not raise `err` -/
namespace Verif
open Verif.Spec

variable {A B : Type} {C : Cfg} {err : PyErr} [Foreign err]

/-- What is given to the simulation raises no such exception. -/
structure Civil (err : PyErr) (C : Cfg) : Prop where
  exec : ∀ c b, Blameless err (C.exec c b).2
  emma : ∀ k p q d, Blameless err (C.emma k p q d)

/-- Nor do the rules. -/
def SoundM (err : PyErr) (w : Mach) : Prop := ∀ n r, alook n w.rules = some r → SoundBody err r.body

/-! ## Actions -/

theorem blameless_onBuf {w : Mach} {n : String} {f : Buf → BState → BResult} (h : ∀ b st, Blameless err (f b st).2) : Blameless err (w.onBuf n f).2 := by
  unfold Mach.onBuf; blame

instance {n : String} {v : RVal} {t : ℚ} {w : Mach} : Blameless err (clearBuf C n v t w).2 := by
  have h := fun i => blameless_onBuf (err := err) (w := w) (n := n) (f := fun b st => st.clear C.P b.cls.kind t (some i)) fun _ _ => inferInstance
  unfold clearBuf; blame
theorem blameless_execAll (hC : Civil err C) {n : String} {l : List (String × String)} {w : Mach} : Blameless err (execAll C n l w).2 := by
  induction l generalizing w with
  | nil => unfold execAll; blame
  | cons c r ih =>
    have h := hC.exec c
    unfold execAll; blame
instance {w : Mach} {n : String} : Blameless err (lhsSlots w n) := by unfold lhsSlots; blame
instance {n : String} {c : Chunk} {bv : BV} {w : Mach} : Blameless err (modifyBuf C n c bv w).2 := by
  have h := fun bv => blameless_onBuf (err := err) (w := w) (n := n) (f := fun _ st => st.modify C.P c bv) fun _ _ => inferInstance
  unfold modifyBuf; blame
instance {n : String} {c : Chunk} {bv : BV} {w : Mach} : Blameless err (createIn C n c bv w).2 := by
  have h := fun i => blameless_onBuf (err := err) (w := w) (n := n) (f := fun _ st => st.create C.P c bv (some i)) fun _ _ => inferInstance
  unfold createIn; blame
instance {n : String} {w : Mach} : Blameless err (firstOf n w).2 := by unfold firstOf; blame
instance {n : String} {c : Chunk} {bv : BV} {t : ℚ} {w : Mach} : Blameless err (retrieveIn C n c bv t w).2 := by unfold retrieveIn; blame
instance {n : String} {c : Chunk} {bv : BV} {w : Mach} : Blameless err (findIn C n c bv w).2 := by unfold findIn; blame
instance {n : String} {c : Chunk} {s : Option Stim} {t : ℚ} {w : Mach} : Blameless err (addLocation C n c s t w).2 := by
  have h := blameless_onBuf (err := err) (w := w) (n := n) (f := fun b st => st.add C.P b.cls.kind (some c) t Option.none) fun _ _ => inferInstance
  unfold addLocation; blame
theorem blameless_shiftIn (hC : Civil err C) {c : Chunk} {bv : BV} {w : Mach} : Blameless err (shiftIn C c bv w).2 := by
  have h := hC.emma
  unfold shiftIn; blame
instance {l : List Chunk} {cf : ℚ × ℚ} {r : List Stim} {w : Mach} {a : Option (Chunk × ℚ)} : Blameless err (autoBufferLoop C l cf r w a).2 := by
  have h : ∀ s : Stim, Blameless err (match l with
          | [] => .ok true
          | c :: _ => match slotValue c "value" with
            | .error e => .error e
            | .ok v => match s.text with
              | Option.none => .error .key
              | some txt => .ok (!pyEq C.P.H v (.str txt)) : Except PyErr Bool) := fun s => by blame
  induction r generalizing w a with
  | nil => unfold autoBufferLoop; blame
  | cons s r ih =>
    unfold autoBufferLoop
    split
    · infer_instance
    · split
      · split
        · rename_i he; exact blameless_eq he (h s)
        · exact ih
        · blame
      · exact ih
instance {c : Chunk} {bv : BV} {w : Mach} : Blameless err (motorCreateIn C c bv w).2 := by unfold motorCreateIn; blame

/-! ## Generators -/

section
variable {W Y : Type}

/-- The generator does not raise `err` as long as others keep to `I`, and when it is done `Q` holds. -/
def Out.Calm (err : PyErr) (I : W → Prop) (Q : A → W → Prop) : Out W Y A → Prop
  | .yield _ _ k => ∀ w', I w' → (k w').Calm err I Q
  | .ret w a => Q a w
  | .raise _ e => e ≠ err

theorem calm_bind {I : W → Prop} {Q : A → W → Prop} {Q' : B → W → Prop} {f : A → Gen W Y B} {o : Out W Y A} (ho : o.Calm err I Q) (hf : ∀ a w, Q a w → (f a w).Calm err I Q') : (o.bind f).Calm err I Q' := by
  induction o with
  | yield w v k ih => exact fun w' hw => ih w' (ho w' hw)
  | ret w a => exact hf a w ho
  | raise w e => exact ho
end

theorem calm_then {g : GenM A} {f : A → GenM B} {w : Mach} {I : Mach → Prop} {Q : A → Mach → Prop} {Q' : B → Mach → Prop} (h : (g w).Calm err I Q) (hf : ∀ a w, Q a w → (f a w).Calm err I Q') : ((g >>= f) w).Calm err I Q' :=
  calm_bind h hf

/-- The generator does not raise `err`. -/
def Mute (err : PyErr) (g : GenM A) : Prop := ∀ w, (g w).Calm err (SoundM err) (fun _ _ => True)

theorem mute_bind {g : GenM A} {f : A → GenM B} (hg : Mute err g) (hf : ∀ a, Mute err (f a)) : Mute err (g >>= f) := fun w => calm_bind (hg w) fun a w _ => hf a w
theorem mute_pure {a : A} : Mute err (Pure.pure a : GenM A) := fun _ => trivial
theorem mute_pure' {a : A} : Mute err (GenM.pure a : GenM A) := fun _ => trivial
theorem mute_throw {e : PyErr} (h : e ≠ err) : Mute err (GenM.throw e : GenM A) := fun _ => h
theorem mute_set {f : Mach → Mach} : Mute err (GenM.set f) := fun _ => trivial
theorem mute_get {f : Mach → A} : Mute err (GenM.get f) := fun _ => trivial
theorem calm_act {f : Mach → Mach × Except PyErr A} {w : Mach} {I : Mach → Prop} {Q : A → Mach → Prop} (h : Blameless err (f w).2) (hQ : ∀ a, (f w).2 = .ok a → Q a (f w).1) : (GenM.act f w).Calm err I Q := by
  rw [genM_act_apply]
  rcases hf : f w with ⟨w', r | r⟩ <;> rw [hf] at h hQ
  · exact blameless_ne rfl h
  · exact hQ r rfl
theorem mute_act {f : Mach → Mach × Except PyErr A} (h : ∀ w, Blameless err (f w).2) : Mute err (GenM.act f) := fun w => calm_act (h w) fun _ _ => trivial
theorem mute_lift {x : Except PyErr A} (h : Blameless err x) : Mute err (GenM.lift x) := fun w => calm_act (f := fun w => (w, x)) h fun _ _ => trivial
theorem mute_event {t : ℚ} {n : String} {a : Act} : Mute err (GenM.event t n a) := fun _ _ _ => trivial
theorem mute_yield {v : YV} : Mute err (GenM.yield v) := fun _ _ _ => trivial

macro "hush" : tactic => `(tactic| repeat' with_reducible first
  | exact mute_event | exact mute_yield | exact mute_get | exact mute_pure | exact mute_pure' | exact mute_set
  | exact mute_throw (foreign_ne (by decide) (by decide))
  | exact mute_lift inferInstance
  | exact mute_act fun _ => inferInstance
  | assumption
  | refine mute_bind ?_ fun _ => ?_
  | split)

theorem mute_clear {n : String} {v : RVal} {t : ℚ} {f : Bool} : Mute err (genClear C n v t f) := by unfold genClear; hush
theorem mute_extraTest {n : String} {v : RVal} {t : ℚ} : Mute err (genExtraTest n v t) := by unfold genExtraTest; hush
theorem mute_execute (hC : Civil err C) {n : String} {v : RVal} {t : ℚ} : Mute err (genExecute C n v t) := by
  unfold genExecute
  refine mute_bind mute_set fun _ => mute_bind (mute_act fun w => ?_) fun _ => by hush
  cases v <;> first | exact blameless_execAll hC | infer_instance
theorem mute_recordModify {n : String} {c : Chunk} : Mute err (recordModify C n c) := by
  unfold recordModify
  exact mute_act fun w => by blame
theorem mute_recordSet {n : String} {c : Chunk} : Mute err (recordSet C n c) := mute_set
theorem mute_modify {n : String} {v : RVal} {bv : BV} {t : ℚ} : Mute err (genModify C n v bv t) := by
  have := fun c => mute_recordModify (err := err) (C := C) (n := n) (c := c)
  unfold genModify
  repeat' with_reducible first | exact this _ | (hush; done) | refine mute_bind ?_ fun _ => ?_
theorem mute_modifyRequest {n : String} {v : RVal} {bv : BV} {t : ℚ} : Mute err (genModifyRequest C n v bv t) := by
  have := fun c => mute_recordModify (err := err) (C := C) (n := n) (c := c)
  unfold genModifyRequest
  repeat' with_reducible first | exact this _ | (hush; done) | refine mute_bind ?_ fun _ => ?_
theorem mute_overwrite {n : String} {v : RVal} {bv : BV} {t : ℚ} : Mute err (genOverwrite C n v bv t) := by unfold genOverwrite recordSet; hush
theorem mute_setGoal {n : String} {v : RVal} {bv : BV} {t : ℚ} : Mute err (genSetGoal C n v bv t) := by
  have h := mute_clear (err := err) (C := C) (n := n) (v := v) (t := t) (f := false)
  unfold genSetGoal recordSet; hush
theorem mute_onBuf {n : String} {f : Buf → BState → BResult} (h : ∀ b st, Blameless err (f b st).2) : Mute err (GenM.act fun w => w.onBuf n f) := mute_act fun _ => blameless_onBuf h
theorem mute_retrieve {n : String} {v : RVal} {bv : BV} {t : ℚ} : Mute err (genRetrieve C n v bv t) := by
  have h := fun (r : Option Chunk × ℚ) => mute_onBuf (err := err) (n := n) (f := fun b st => st.add C.P b.cls.kind r.1 (t + r.2) Option.none) fun _ _ => inferInstance
  unfold genRetrieve recordRetrieved
  repeat' with_reducible first | exact h _ | (hush; done) | refine mute_bind ?_ fun _ => ?_ | split
theorem mute_findLocation {n : String} {v : RVal} {bv : BV} {t : ℚ} : Mute err (genFindLocation C n v bv t) := by
  have h := mute_clear (err := err) (C := C) (n := n) (v := .nothing) (t := t) (f := false)
  unfold genFindLocation; hush
theorem mute_visualencode {n : String} {c : Chunk} {t x : ℚ} {s : ℚ × ℚ} : Mute err (genVisualencode C n c t x s) := by
  have h := mute_clear (err := err) (C := C) (n := n) (v := .nothing) (t := t + x) (f := false)
  have h2 := mute_onBuf (err := err) (n := n) (f := fun b st => st.add C.P b.cls.kind (some c) (t + x) Option.none) fun _ _ => inferInstance
  unfold genVisualencode; hush
theorem mute_shift (hC : Civil err C) {c : Chunk} {bv : BV} : Mute err (GenM.act (shiftIn C c bv)) := mute_act fun _ => blameless_shiftIn hC
theorem mute_visualshift (hC : Civil err C) {n : String} {v : RVal} {bv : BV} {t : ℚ} : Mute err (genVisualshift C n v bv t) := by
  unfold genVisualshift
  repeat' with_reducible first | exact mute_visualencode | exact mute_shift hC | (hush; done) | refine mute_bind ?_ fun _ => ?_ | split
theorem mute_visualcontinue (hC : Civil err C) {n : String} {c : Chunk} {bv : BV} {t : ℚ} {ts : ℚ × ℚ × ℚ} {s : ℚ × ℚ} : Mute err (genVisualcontinue C n c bv t ts s) := by
  unfold genVisualcontinue
  repeat' with_reducible first | exact mute_visualencode | exact mute_shift hC | (hush; done) | refine mute_bind ?_ fun _ => ?_ | split
theorem mute_visual (hC : Civil err C) {n : String} {v : RVal} {bv : BV} {t : ℚ} : Mute err (genVisual C n v bv t) := by
  have h := mute_visualshift hC (n := n) (v := v) (bv := bv) (t := t)
  unfold genVisual; hush
theorem mute_autoSearch {n : String} {s : List Stim} {t : ℚ} : Mute err (genAutoSearch C n s t) := by
  have h := fun (c : Chunk) (w : Mach) => blameless_onBuf (err := err) (w := w) (n := n) (f := fun _ st => st.modify C.P c BV.init) fun _ _ => inferInstance
  unfold genAutoSearch
  repeat' first | (refine mute_act fun _ => ?_; blame; done) | with_reducible (hush; done) | refine mute_bind ?_ fun _ => ?_ | split
theorem mute_autoBuffer {n : String} {s : List Stim} {t : ℚ} : Mute err (genAutoBuffer C n s t) := by
  unfold genAutoBuffer
  repeat' first | (refine mute_onBuf fun _ _ => ?_; blame; done) | (refine mute_act fun _ => ?_; blame; done) | with_reducible (hush; done) | refine mute_bind ?_ fun _ => ?_ | split
theorem mute_motorset {n : String} {v : RVal} {bv : BV} {t : ℚ} : Mute err (genMotorset C n v bv t) := by unfold genMotorset; hush
theorem mute_motorcontinue {n k : String} {t : ℚ} {pr : ℚ × ℚ × ℚ × ℚ} : Mute err (genMotorcontinue n k t pr) := by unfold genMotorcontinue; hush
theorem mute_retrieveorset (hC : Civil err C) {n : String} {v : RVal} {bv : BV} {t : ℚ} : Mute err (genRetrieveorset C n v bv t) := by
  have h1 := mute_setGoal (err := err) (C := C) (n := n) (v := v) (bv := bv) (t := t)
  have h2 := mute_retrieve (err := err) (C := C) (n := n) (v := v) (bv := bv) (t := t)
  have h3 := mute_motorset (err := err) (C := C) (n := n) (v := v) (bv := bv) (t := t)
  have h4 := mute_visual hC (n := n) (v := v) (bv := bv) (t := t)
  have h5 := mute_findLocation (err := err) (C := C) (n := n) (v := v) (bv := bv) (t := t)
  unfold genRetrieveorset; hush

/-- The processes of modules do not raise `err`. -/
theorem mute_run (hC : Civil err C) (d : Desc) : Mute err (d.run C) := by
  cases d with
  | retrieveorset n v bv t => exact mute_retrieveorset hC
  | modifyRequest n v bv t => exact mute_modifyRequest
  | clear n bv t => exact mute_clear
  | autoSearch n s t => exact mute_autoSearch
  | autoBuffer n s t => exact mute_autoBuffer
  | visualContinue n c bv t ts s => exact mute_visualcontinue hC
  | motorContinue n k t pr => exact mute_motorcontinue

theorem mute_immediate (hC : Civil err C) {k : Key} {v : RVal} {bv : BV} {t : ℚ} : Mute err (immediate C k v bv t) := by
  unfold immediate
  split_ifs
  · exact mute_extraTest
  · exact mute_execute hC
  · exact mute_modify
  · exact mute_overwrite
  · exact mute_clear

theorem mute_updateLoop (hC : Civil err C) {t : ℚ} : ∀ {l : List (Key × RVal)} {temp : BV}, Mute err (updateLoop C t l temp)
  | [], _ => mute_pure'
  | (k, v) :: r, temp => by
    have h := mute_updateLoop hC (t := t) (l := r) (temp := temp.popVar k.name)
    simp only [updateLoop]
    repeat' with_reducible first | exact mute_immediate hC | (refine mute_act fun _ => ?_; split <;> infer_instance) | (hush; done) | refine mute_bind ?_ fun _ => ?_ | split

theorem mute_update (hC : Civil err C) {rhs : List (Key × RVal)} {t : ℚ} : Mute err (genUpdate C rhs t) := by
  unfold genUpdate
  repeat' with_reducible first | exact mute_updateLoop hC | (hush; done) | refine mute_bind ?_ fun _ => ?_ | split

/-! ## The rules -/

theorem mute_rhs (hC : Civil err C) {n : String} {rule : CRule} {t : ℚ} (h : SoundBody err rule.body) : Mute err (genRhs C n rule t) := by
  unfold genRhs
  exact mute_bind (mute_lift h.rhs) fun _ => mute_bind (mute_update hC) fun _ => mute_set

theorem blameless_selectC {H : PyHash} {f : Faces} {p : UParams} {rules : CRules} {bv : BV} {d : ℕ → ℚ} (hr : ∀ n r, alook n rules = some r → SoundBody err r.body) {l : List String} {k : ℕ} {b : Option (String × ℚ)} :
    Blameless err (selectC H f p rules bv d k l b) := by
  induction l generalizing k b with
  | nil => unfold selectC; blame
  | cons n r ih =>
    unfold selectC
    split
    · infer_instance
    · rename_i rule hl
      have h := (hr n rule hl).lhs
      blame

theorem blameless_selectIn {w : Mach} (h : (SoundM err) w) : Blameless err (selectIn C w).2 := by
  have hs := blameless_selectC (H := C.P.H) (f := w.faces) (p := C.up) (bv := w.bv) (d := C.udraws w.tick) h (l := w.ordered) (k := 0) (b := Option.none)
  unfold selectIn; blame

theorem selectIn_sound {w : Mach} (h : (SoundM err) w) {n : String} {r : CRule} (hs : (selectIn C w).2 = .ok (some (n, r))) : SoundBody err r.body := by
  unfold selectIn at hs
  dsimp only at hs
  split at hs
  · cases hs
  · cases hs
  · split at hs
    · cases hs
    · rename_i rule hl
      cases hs
      exact h _ _ hl

theorem sound_practice {w w' : Mach} (h : (SoundM err) w) (hp : Practice C w w') : (SoundM err) w' := fun n r hr => by
  have hs : ∀ {n b}, Stems C w n b → SoundBody err b := fun {n b} hs => by
    induction hs with
    | given hr => exact h _ _ hr
    | made reg sv bufs _ _ _ _ hn ih1 ih2 => exact sound_newRule ih1 ih2 hn
  exact hs (practice_stems hp (n := n) (r' := r) hr)

theorem blameless_nameLoop {H : PyHash} {p : UParams} {r1 r2 : String} {u : ℚ} {new : Body} {rules : CRules} (hn : SoundBody err new) (hr : ∀ n r, alook n rules = some r → SoundBody err r.body) {fuel i : ℕ}
    {x : CRules × Except PyErr Compiled} (h : nameLoop H p r1 r2 u new rules fuel i = some x) : Blameless err x.2 := by
  induction fuel generalizing i with
  | zero => cases h
  | succ fuel ih =>
    unfold nameLoop at h
    dsimp only at h
    split at h
    · rename_i r hl
      have hb := blameless_bodyEq (H := H) (hr _ _ hl) hn
      split at h
      · rename_i e he
        cases h
        exact blameless_eq he hb
      · cases h; infer_instance
      · exact ih h
    · cases h; infer_instance

theorem blameless_compileRules {P : Py} {reg : Reg} {p : UParams} {rules : CRules} {r1 r2 : String} {sv : SlotVals} {bufs : List (String × CBuf)} (hr : ∀ n r, alook n rules = some r → SoundBody err r.body) :
    Blameless err (compileRules P reg p rules r1 r2 sv bufs).2 := by
  unfold compileRules
  split
  · rename_i x1 x2 h1 h2
    have hb := blameless_newRule (P := P) (reg := reg) (n := r2) (sv := sv) (bufs := bufs) (hr _ _ h1) (hr _ _ h2)
    split
    · rename_i e he; exact blameless_eq he hb
    · infer_instance
    · rename_i new hn
      have hs := sound_newRule (hr _ _ h1) (hr _ _ h2) hn
      cases hl : nameLoop P.H p r1 r2 x1.utility new rules (rules.length + 1) 0 with
      | none =>
        obtain ⟨x, hx⟩ := nameLoop_total P.H p r1 r2 x1.utility new rules
        rw [hx] at hl; cases hl
      | some x => exact blameless_nameLoop hs hr hl
  · infer_instance

theorem blameless_compileIn {w : Mach} (h : (SoundM err) w) : Blameless err (compileIn C w).2 := by
  unfold compileIn
  split
  · rename_i r1 r2 sv _ _
    have hb := blameless_compileRules (P := C.P) (reg := w.reg) (p := C.up) (r1 := r1) (r2 := r2) (sv := sv) (bufs := w.cbufs) h
    dsimp only
    split
    · rename_i e he; exact blameless_eq he hb
    · infer_instance
    · infer_instance
  · infer_instance

/-- A cycle of the rules does not raise `err`, if the rules do not. -/
theorem calm_procedural (hC : Civil err C) (t : ℚ) (w : Mach) : (genProcedural C t w).Calm err (SoundM err) (fun _ _ => True) := by
  have hfire : ∀ n (rule : CRule) t w, (SoundM err) w → SoundBody err rule.body → (genFire C n rule t w).Calm err (SoundM err) (fun _ _ => True) := fun n rule t w hw hr => by
    unfold genFire
    refine calm_then (Q := fun _ => (SoundM err)) (g := GenM.set (rewardStep C n t)) (sound_practice hw (.single (practised_reward n t w))) fun _ w hw => ?_
    refine calm_then (Q := fun _ _ => True) (calm_act (blameless_compileIn hw) fun _ _ => trivial) fun comp w _ => ?_
    have h := mute_rhs hC (n := n) (rule := rule) (t := t) hr
    revert w
    show Mute err _
    refine mute_bind mute_set fun _ => ?_
    cases comp <;> hush
  have htest : ∀ n (rule : CRule) t w, (SoundM err) w → SoundBody err rule.body → (genTest C n rule t w).Calm err (SoundM err) (fun _ _ => True) := fun n rule t w hw hr => by
    unfold genTest
    refine calm_then (Q := fun _ => (SoundM err)) (g := GenM.lift rule.body.lhs) (calm_act (f := fun w => (w, rule.body.lhs)) hr.lhs fun _ _ => hw) fun lhs w hw => ?_
    refine calm_then (Q := fun _ => (SoundM err)) (g := GenM.act (fun w => (w, lhsTest C.P.H w.faces lhs w.bv))) (calm_act (f := fun w => (w, lhsTest C.P.H w.faces lhs w.bv)) inferInstance fun _ _ => hw) fun m w hw => ?_
    cases m with
    | none => exact mute_event w
    | some bv => exact calm_then (Q := fun _ => (SoundM err)) (g := GenM.set (fun w => { w with bv := bv })) hw fun _ w hw => hfire n rule t w hw hr
  have hsel : ∀ n (rule : CRule) w, SoundBody err rule.body → (genSelected C n rule t w).Calm err (SoundM err) (fun _ _ => True) := fun n rule w hr => by
    unfold genSelected
    refine calm_then (Q := fun _ _ => True) (mute_set _) fun _ w _ => ?_
    refine calm_then (Q := fun _ _ => True) (mute_event w) fun _ w _ => ?_
    exact calm_then (Q := fun _ => (SoundM err)) (g := GenM.event (t + C.ruleFiring) procName .unknown) (fun w' hw => hw) fun _ w hw => htest n rule _ w hw hr
  unfold genProcedural
  refine calm_then (Q := fun _ _ => True) (mute_set _) fun _ w _ => ?_
  refine calm_then (Q := fun _ => (SoundM err)) (g := GenM.event t procName .conflict) (fun w' hw => hw) fun _ w hw => ?_
  refine calm_then (Q := fun o _ => ∀ n r, o = some (n, r) → SoundBody err r.body) (calm_act (blameless_selectIn hw) fun o ho n r hn => selectIn_sound hw (ho.trans (by rw [hn]))) fun o w ho => ?_
  cases o with
  | none => exact (mute_bind mute_set fun _ => mute_bind mute_event fun _ => mute_yield : Mute err _) w
  | some x => exact calm_then (hsel x.1 x.2 w (ho _ _ rfl)) fun _ w _ => mute_yield w

/-! ## The environment -/

theorem calm_env (upper : String → String) (a : StimArg) (b : TrigArg) (c : EnvTimes) (t : ℚ) (w : Mach) :
    (envProcess (fun env (w : Mach) => { w with env := some env }) envOf upper a b c t w).Calm err (fun _ => True) (fun _ _ => True) := by
  have h : ∀ l i time w, (envLoop (fun env (w : Mach) => { w with env := some env }) envOf i time l w).Calm err (fun _ => True) (fun _ _ => True) := by
    intro l
    induction l with
    | nil => intro i time w; exact trivial
    | cons s r ih =>
      intro i time w
      simp only [envLoop]
      split
      · exact (foreign_ne (by decide) (by decide) : PyErr.index ≠ err)
      · split
        · exact (foreign_ne (by decide) (by decide) : PyErr.index ≠ err)
        · exact fun w' _ => ih _ _ w'
  have hp : Blameless err (prepareEnv upper a b c) := inferInstance
  unfold envProcess
  dsimp only
  split
  · rename_i e he; exact blameless_ne he hp
  · exact fun w' _ => h _ _ _ w'

end Verif
