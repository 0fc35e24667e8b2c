import Verif.Lemmas.Confined
import Verif.Spec.Credit
/-! # Who leaves keys alone -/
namespace Verif
open Verif.Spec

/-- No key is pressed. -/
def Handsoff (w w' : Mach) : Prop := w'.interaction = w.interaction

theorem handsoff_refl (w : Mach) : Handsoff w w := rfl
theorem handsoff_trans (a b c : Mach) (h1 : Handsoff a b) (h2 : Handsoff b c) : Handsoff a c := Eq.trans h2 h1

theorem handsoff_upd {n : String} {w : Mach} {f : Buf → Buf} : Handsoff w (w.upd n f) := by unfold Handsoff; rw [upd_eq]
theorem handsoff_setState {n : String} {w : Mach} {s : Status} : Handsoff w (w.setState n s) := handsoff_upd

theorem handsoff_putBst {n : String} {w : Mach} {st : BState} : Handsoff w (w.putBst n st) :=
  handsoff_trans _ { w with reg := st.reg, mems := st.mems } _ rfl
    (handsoff_upd)

theorem handsoff_onBuf {n : String} {w : Mach} {f : Buf → BState → BResult} : Handsoff w (w.onBuf n f).1 := by
  unfold Mach.onBuf
  split
  · exact handsoff_refl w
  · exact handsoff_putBst

/-- After an operation on the buffer, changes of its other attributes. -/
theorem handsoff_onBuf_upd {n : String} {w w1 : Mach} {f : Buf → BState → BResult} {g : Buf → Buf} {r : Except PyErr Unit} (h : w.onBuf n f = (w1, r)) : Handsoff w (w1.upd n g) := by
  have := handsoff_onBuf (n := n) (w := w) (f := f)
  rw [h] at this
  exact handsoff_trans _ _ _ this (handsoff_upd)

theorem handsoff_onBuf' {n : String} {w w1 : Mach} {f : Buf → BState → BResult} {r : Except PyErr Unit} (h : w.onBuf n f = (w1, r)) : Handsoff w w1 := by
  have := handsoff_onBuf (n := n) (w := w) (f := f)
  rwa [h] at this

theorem handsoff_reg {w : Mach} {reg : Reg} : Handsoff w { w with reg := reg } :=
  rfl
theorem handsoff_reg_tick {w : Mach} {reg : Reg} {k : ℕ} : Handsoff w { w with reg := reg, tick := k } :=
  rfl
theorem handsoff_cur {w : Mach} {s : SlotVals} : Handsoff w { w with curSlots := s } :=
  rfl

section
variable {A B : Type}
theorem spares_bind {g : GenM A} {f : A → GenM B} (hg : StaysIn (Handsoff) g) (hf : ∀ a, StaysIn (Handsoff) (f a)) : StaysIn (Handsoff) (g >>= f) :=
  ⟨fun w => moves_bind handsoff_trans (hg.moves w) fun a => (hf a).moves⟩
theorem spares_set {f : Mach → Mach} (h : ∀ w, Handsoff w (f w)) : StaysIn (Handsoff) (GenM.set f) := ⟨fun w => moves_set (h w)⟩
theorem spares_act {f : Mach → Mach × Except PyErr A} (h : ∀ w, Handsoff w (f w).1) : StaysIn (Handsoff) (GenM.act f) := ⟨fun w => moves_act (h w)⟩
theorem spares_get {f : Mach → A} : StaysIn (Handsoff) (GenM.get f) := ⟨fun w => moves_get (handsoff_refl) f w⟩
theorem spares_lift {x : Except PyErr A} : StaysIn (Handsoff) (GenM.lift x) := ⟨fun w => moves_lift (handsoff_refl) x w⟩
theorem spares_throw {x : PyErr} : StaysIn (Handsoff) (GenM.throw x : GenM A) := ⟨fun w => moves_throw (handsoff_refl) x w⟩
theorem spares_pure {x : A} : StaysIn (Handsoff) (Pure.pure x : GenM A) := ⟨fun w => moves_pure (handsoff_refl) x w⟩
theorem spares_event {t : ℚ} {m : String} {a : Act} : StaysIn (Handsoff) (GenM.event t m a) := ⟨fun w => moves_event (handsoff_refl) t m a w⟩
theorem spares_yield {y : YV} : StaysIn (Handsoff) (GenM.yield y) := ⟨fun w => moves_yield (handsoff_refl) y w⟩
end

theorem handsoff_clearBuf {C : Cfg} {n : String} {v : RVal} {t : ℚ} {w : Mach} : Handsoff w (clearBuf C n v t w).1 := by
  have hb : ∀ f, Handsoff w (w.onBuf n f).1 := fun f => handsoff_onBuf
  have ha : ∀ (b : Buf) (i : ℕ), Handsoff w (if b.cls = .decmem then (w, .error .type)
      else w.onBuf n (fun b st => st.clear C.P b.cls.kind t (some i)) : Mach × Except PyErr Unit).1 := by
    intro b i
    split
    · exact handsoff_refl w
    · exact hb _
  have hn : ∀ (b : Buf), Handsoff w (match alook n w.dms with
      | some i => (if b.cls = .decmem then (w, .error .type)
          else w.onBuf n (fun b st => st.clear C.P b.cls.kind t (some i)))
      | Option.none => (w, .error .actr) : Mach × Except PyErr Unit).1 := by
    intro b
    split
    · exact ha _ _
    · exact handsoff_refl w
  unfold clearBuf
  dsimp only
  split
  · exact handsoff_refl w
  · rename_i b _
    split
    · exact handsoff_refl w
    · split
      · exact handsoff_putBst
      · split
        · exact ha _ _
        · split
          · exact hn _
          · split
            · exact hn _
            · exact handsoff_refl w
          · split
            · exact hn _
            · exact handsoff_refl w
          · split
            · exact hn _
            · exact handsoff_refl w

theorem handsoff_execAll (C : Cfg) (n : String) : ∀ l w, Handsoff w (execAll C n l w).1
  | [], w => handsoff_refl w
  | c :: r, w => by
    simp only [execAll]
    split
    · exact handsoff_refl w
    · split
      · refine handsoff_trans _ _ _ ?_ (handsoff_execAll C n r _)
        exact handsoff_upd
      · exact handsoff_upd

theorem handsoff_modifyBuf {C : Cfg} {n : String} {c : Chunk} {bv : BV} {w : Mach} : Handsoff w (modifyBuf C n c bv w).1 := by
  unfold modifyBuf
  split
  · exact handsoff_refl w
  · split
    · split
      · exact handsoff_onBuf_upd (by assumption)
      · exact handsoff_onBuf' (by assumption)
    · exact handsoff_onBuf

theorem handsoff_createIn {C : Cfg} {n : String} {c : Chunk} {bv : BV} {w : Mach} : Handsoff w (createIn C n c bv w).1 := by
  unfold createIn
  split
  · exact handsoff_refl w
  · split
    · exact handsoff_refl w
    · split
      · exact handsoff_refl w
      · split
        · exact handsoff_refl w
        · exact handsoff_onBuf

theorem handsoff_firstOf {m : String} {w : Mach} : Handsoff w (firstOf m w).1 := by
  unfold firstOf
  split
  · split <;> exact handsoff_refl w
  · exact handsoff_refl w

theorem handsoff_retrieveIn {C : Cfg} {n : String} {c : Chunk} {bv : BV} {t : ℚ} {w : Mach} : Handsoff w (retrieveIn C n c bv t w).1 := by
  unfold retrieveIn
  dsimp only
  split
  · exact handsoff_refl w
  · split
    · split <;> exact handsoff_reg
    · refine handsoff_trans _ _ _ ?_ (handsoff_upd)
      exact rfl

theorem handsoff_findIn {C : Cfg} {m : String} {c : Chunk} {bv : BV} {w : Mach} : Handsoff w (findIn C m c bv w).1 := by
  unfold findIn
  split
  · exact handsoff_reg
  · exact handsoff_refl w

theorem handsoff_addLocation {C : Cfg} {n : String} {c : Chunk} {s : Option Stim} {t : ℚ} {w : Mach} : Handsoff w (addLocation C n c s t w).1 := by
  unfold addLocation
  split
  · exact handsoff_onBuf_upd (by assumption)
  · exact handsoff_onBuf' (by assumption)

theorem handsoff_shiftIn {C : Cfg} {c : Chunk} {bv : BV} {w : Mach} : Handsoff w (shiftIn C c bv w).1 := by
  unfold shiftIn
  split
  · exact handsoff_refl w
  · split
    · exact handsoff_refl w
    · split
      · exact handsoff_refl w
      · exact handsoff_refl w
      · split
        · exact handsoff_reg
        · dsimp only
          split
          · exact handsoff_reg_tick
          · exact handsoff_reg

theorem handsoff_autoBufferLoop (C : Cfg) (data : List Chunk) (cf : ℚ × ℚ) : ∀ (l : List Stim) (w : Mach) (acc : Option (Chunk × ℚ)),
    Handsoff w (autoBufferLoop C data cf l w acc).1
  | [], w, _ => handsoff_refl w
  | s :: r, w, acc => by
    unfold autoBufferLoop
    split
    · exact handsoff_refl w
    · split
      · split
        · exact handsoff_refl w
        · exact handsoff_autoBufferLoop C data cf r _ _
        · split
          · exact handsoff_reg
          · exact handsoff_trans _ _ _ handsoff_reg_tick (handsoff_autoBufferLoop C data cf r _ _)
      · exact handsoff_autoBufferLoop C data cf r _ _

theorem handsoff_motorCreateIn {C : Cfg} {c : Chunk} {bv : BV} {w : Mach} : Handsoff w (motorCreateIn C c bv w).1 := by
  unfold motorCreateIn
  split
  · exact handsoff_reg
  · split <;> exact handsoff_reg

/-- Steps of the proofs below: the parts of a generator one by one. -/
macro "handsoff" : tactic => `(tactic| repeat' with_reducible first
  | exact spares_event | exact spares_yield | exact spares_get | exact spares_lift | exact spares_throw | exact spares_pure
  | exact spares_act fun _ => handsoff_clearBuf | exact spares_act fun _ => handsoff_modifyBuf | exact spares_act fun _ => handsoff_createIn
  | exact spares_act fun _ => handsoff_firstOf | exact spares_act fun _ => handsoff_retrieveIn | exact spares_act fun _ => handsoff_findIn
  | exact spares_act fun _ => handsoff_addLocation | exact spares_act fun _ => handsoff_shiftIn | exact spares_act fun _ => handsoff_motorCreateIn
  | exact spares_act fun _ => handsoff_onBuf
  | exact spares_set fun _ => handsoff_setState | exact spares_set fun _ => handsoff_upd
  | assumption
  | refine spares_bind ?_ fun _ => ?_
  | split)

theorem handsoff_genClear (C : Cfg) (n : String) (v : RVal) (t : ℚ) (f : Bool) : StaysIn (Handsoff) (genClear C n v t f) := by
  have h : StaysIn (Handsoff) (GenM.set fun w => if f then w.setState n .free else w) := spares_set fun w => by
    split
    · exact handsoff_setState
    · exact handsoff_refl w
  unfold genClear
  handsoff

theorem handsoff_extraTest (n : String) (v : RVal) (t : ℚ) : StaysIn (Handsoff) (genExtraTest n v t) := by
  unfold genExtraTest
  refine spares_bind (spares_set fun _ => handsoff_setState) fun _ => spares_bind (spares_set fun w => ?_) fun _ => ?_
  · exact rfl
  · handsoff

theorem handsoff_execute (C : Cfg) (n : String) (v : RVal) (t : ℚ) : StaysIn (Handsoff) (genExecute C n v t) := by
  unfold genExecute
  refine spares_bind (spares_set fun _ => handsoff_setState) fun _ => spares_bind (spares_act fun w => ?_) fun _ => ?_
  · split
    · exact handsoff_execAll ..
    · exact handsoff_refl w
  · handsoff

theorem handsoff_recordModify (C : Cfg) (m : String) (c : Chunk) : StaysIn (Handsoff) (recordModify C m c) := by
  unfold recordModify
  refine spares_act fun w => ?_
  split
  · split
    · exact handsoff_refl w
    · exact handsoff_cur
  · exact handsoff_refl w

theorem handsoff_recordSet (C : Cfg) (m : String) (c : Chunk) : StaysIn (Handsoff) (recordSet C m c) := by
  unfold recordSet
  refine spares_set fun w => ?_
  split
  · exact handsoff_cur
  · exact handsoff_refl w

theorem handsoff_recordRetrieved (C : Cfg) (m : String) (c : Chunk) (r : Option Chunk) : StaysIn (Handsoff) (recordRetrieved C m c r) := by
  unfold recordRetrieved
  refine spares_set fun w => ?_
  split
  · exact handsoff_cur
  · exact handsoff_refl w

theorem handsoff_modify (C : Cfg) (n : String) (v : RVal) (bv : BV) (t : ℚ) : StaysIn (Handsoff) (genModify C n v bv t) := by
  have h := fun c => handsoff_recordModify C n c
  unfold genModify
  repeat' with_reducible first | exact h _ | (handsoff; done) | refine spares_bind ?_ fun _ => ?_

theorem handsoff_modifyRequest (C : Cfg) (n : String) (v : RVal) (bv : BV) (t : ℚ) : StaysIn (Handsoff) (genModifyRequest C n v bv t) := by
  have h := fun c => handsoff_recordModify C n c
  unfold genModifyRequest
  repeat' with_reducible first | exact h _ | (handsoff; done) | refine spares_bind ?_ fun _ => ?_

theorem handsoff_overwrite (C : Cfg) (n : String) (v : RVal) (bv : BV) (t : ℚ) : StaysIn (Handsoff) (genOverwrite C n v bv t) := by
  have h := fun c => handsoff_recordSet C n c
  unfold genOverwrite
  repeat' with_reducible first | exact h _ | (handsoff; done) | refine spares_bind ?_ fun _ => ?_

theorem handsoff_immediate (C : Cfg) (k : Key) (v : RVal) (bv : BV) (t : ℚ) : StaysIn (Handsoff) (immediate C k v bv t) := by
  unfold immediate
  split_ifs
  · exact handsoff_extraTest ..
  · exact handsoff_execute ..
  · exact handsoff_modify ..
  · exact handsoff_overwrite ..
  · exact handsoff_genClear ..

/-! ## Requests -/

theorem handsoff_setGoal (C : Cfg) (n : String) (v : RVal) (bv : BV) (t : ℚ) : StaysIn (Handsoff) (genSetGoal C n v bv t) := by
  have h := fun c => handsoff_recordSet C n c
  have h' := handsoff_genClear C n v t false
  unfold genSetGoal
  repeat' with_reducible first | exact h _ | exact h' | (handsoff; done) | refine spares_bind ?_ fun _ => ?_

theorem handsoff_retrieve (C : Cfg) (n : String) (v : RVal) (bv : BV) (t : ℚ) : StaysIn (Handsoff) (genRetrieve C n v bv t) := by
  have h := fun c r => handsoff_recordRetrieved C n c r
  unfold genRetrieve
  repeat' with_reducible first | exact h _ _ | (handsoff; done) | refine spares_bind ?_ fun _ => ?_ | split

theorem handsoff_findLocation (C : Cfg) (n : String) (v : RVal) (bv : BV) (t : ℚ) : StaysIn (Handsoff) (genFindLocation C n v bv t) := by
  have h := handsoff_genClear C n .nothing t false
  unfold genFindLocation
  handsoff

theorem handsoff_visualencode (C : Cfg) (n : String) (c : Chunk) (t x : ℚ) (s : ℚ × ℚ) : StaysIn (Handsoff) (genVisualencode C n c t x s) := by
  have h := handsoff_genClear C n .nothing (t + x) false
  unfold genVisualencode
  handsoff

theorem handsoff_visualshift (C : Cfg) (n : String) (v : RVal) (bv : BV) (t : ℚ) : StaysIn (Handsoff) (genVisualshift C n v bv t) := by
  have h := fun c t x s => handsoff_visualencode C n c t x s
  unfold genVisualshift
  repeat' with_reducible first | exact h _ _ _ _ | (handsoff; done) | refine spares_bind ?_ fun _ => ?_ | split

theorem handsoff_visualcontinue (C : Cfg) (n : String) (c : Chunk) (bv : BV) (t : ℚ) (ts : ℚ × ℚ × ℚ) (s : ℚ × ℚ) :
    StaysIn (Handsoff) (genVisualcontinue C n c bv t ts s) := by
  have h := fun c t x s => handsoff_visualencode C n c t x s
  have h' : StaysIn (Handsoff) (GenM.set (fun w =>
      ({ w with env := w.env.map (fun e => { e with focus := ((truncQ s.1 : ℚ), (truncQ s.2 : ℚ)) }) } : Mach).upd n
        (fun b => { b with focus := ((truncQ s.1 : ℚ), (truncQ s.2 : ℚ)) }))) := spares_set fun w => by
    refine handsoff_trans _ { w with env := w.env.map (fun e => { e with focus := ((truncQ s.1 : ℚ), (truncQ s.2 : ℚ)) }) } _ ?_
      (handsoff_upd)
    exact rfl
  unfold genVisualcontinue
  repeat' with_reducible first | exact h _ _ _ _ | exact h' | (handsoff; done) | refine spares_bind ?_ fun _ => ?_ | split

theorem handsoff_visual (C : Cfg) (n : String) (v : RVal) (bv : BV) (t : ℚ) : StaysIn (Handsoff) (genVisual C n v bv t) := by
  have h := handsoff_visualshift C n v bv t
  unfold genVisual
  handsoff

theorem handsoff_autoSearch (C : Cfg) (n : String) (s : List Stim) (t : ℚ) : StaysIn (Handsoff) (genAutoSearch C n s t) := by
  unfold genAutoSearch
  refine spares_bind (spares_set fun _ => handsoff_setState) fun _ => spares_bind (spares_act fun w => ?_) fun r => ?_
  · split
    · split
      · exact handsoff_reg
      · exact handsoff_refl w
    · exact handsoff_refl w
  · handsoff
    refine spares_act fun w => ?_
    split
    · exact handsoff_onBuf_upd (by assumption)
    · exact handsoff_onBuf' (by assumption)

theorem handsoff_autoBuffer (C : Cfg) (n : String) (s : List Stim) (t : ℚ) : StaysIn (Handsoff) (genAutoBuffer C n s t) := by
  unfold genAutoBuffer
  refine spares_bind (spares_set fun _ => handsoff_upd) fun _ => spares_bind (spares_act fun w => ?_) fun r => ?_
  · split
    · exact handsoff_autoBufferLoop ..
    · exact handsoff_refl w
  · handsoff

theorem handsoff_motorset (C : Cfg) (n : String) (v : RVal) (bv : BV) (t : ℚ) : StaysIn (Handsoff) (genMotorset C n v bv t) := by
  unfold genMotorset
  refine spares_bind spares_lift fun _ => spares_bind (spares_act fun _ => handsoff_motorCreateIn) fun m => spares_bind spares_get fun _ =>
    spares_bind (spares_set fun w => ?_) fun _ => ?_
  · split
    · exact rfl
    · exact handsoff_refl w
  · handsoff

theorem handsoff_retrieveorset (C : Cfg) (n : String) (v : RVal) (bv : BV) (t : ℚ) : StaysIn (Handsoff) (genRetrieveorset C n v bv t) := by
  have h1 := handsoff_setGoal C n v bv t
  have h2 := handsoff_retrieve C n v bv t
  have h3 := handsoff_motorset C n v bv t
  have h4 := handsoff_visual C n v bv t
  have h5 := handsoff_findLocation C n v bv t
  unfold genRetrieveorset
  handsoff

/-- Every process leaves keys alone, except for the second part of motor commands. -/
theorem handsoff_run (C : Cfg) (d : Desc) (hd : workKind d ≠ some .motor) : StaysIn Handsoff (d.run C) := by
  cases d with
  | retrieveorset n v bv t => exact handsoff_retrieveorset ..
  | modifyRequest n v bv t => exact handsoff_modifyRequest ..
  | clear n bv t => exact handsoff_genClear ..
  | autoSearch n s t => exact handsoff_autoSearch ..
  | autoBuffer n s t => exact handsoff_autoBuffer ..
  | visualContinue n c bv t ts s => exact handsoff_visualcontinue ..
  | motorContinue n k t pr => exact absurd rfl hd

end Verif
