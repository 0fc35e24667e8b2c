import Verif.Lemmas.Machine
import Verif.Lemmas.ChunkDict
import Verif.Spec.Machine
/-! # What processes leave alone -/
namespace Verif
open Verif.Spec

theorem moves_set {R : Mach → Mach → Prop} {f : Mach → Mach} {w : Mach} (h : R w (f w)) : (GenM.set f w).Moves R w := h
theorem moves_get {A : Type} {R : Mach → Mach → Prop} (hr : ∀ w, R w w) (f : Mach → A) (w : Mach) : (GenM.get f w).Moves R w := hr w
theorem moves_lift {A : Type} {R : Mach → Mach → Prop} (hr : ∀ w, R w w) (x : Except PyErr A) (w : Mach) : (GenM.lift x w).Moves R w := moves_act (hr w)
theorem moves_throw {A : Type} {R : Mach → Mach → Prop} (hr : ∀ w, R w w) (x : PyErr) (w : Mach) : (GenM.throw x w : Out Mach YV A).Moves R w := hr w
theorem moves_pure {A : Type} {R : Mach → Mach → Prop} (hr : ∀ w, R w w) (x : A) (w : Mach) : ((Pure.pure x : GenM A) w).Moves R w := hr w

theorem moves_mono {A : Type} {R R' : Mach → Mach → Prop} (h : ∀ a b, R a b → R' a b) {o : Out Mach YV A} : ∀ {w : Mach}, o.Moves R w → o.Moves R' w := by
  induction o with
  | yield w y k ih => intro w0 ho; exact ⟨h _ _ ho.1, fun w' => ih w' (ho.2 w')⟩
  | ret w a => intro w0 ho; exact h _ _ ho
  | raise w e => intro w0 ho; exact h _ _ ho

theorem names_upd (w : Mach) (n : String) (f : Buf → Buf) : (w.upd n f).bufs.map Prod.fst = w.bufs.map Prod.fst := by
  unfold Mach.upd
  split
  · rename_i b hb
    simp only [keys_aset]
    rw [if_pos (mem_keys_iff.2 ⟨b, hb⟩)]
  · rfl

theorem shape_aset {n : String} {b b' : Buf} (hc : b'.cls = b.cls) : ∀ (l : List (String × Buf)), alook n l = some b →
    (aset n b' l).map (fun p => (p.1, p.2.cls)) = l.map (fun p => (p.1, p.2.cls))
  | [], h => by cases h
  | (m, c) :: l, h => by
    simp only [alook, aset] at h ⊢
    split at h
    · cases h
      rename_i hm
      simp [hm, hc]
    · rename_i hm
      simp only [hm, if_false, List.map_cons, shape_aset hc l h]

theorem confined_refl (n : String) (w : Mach) : Confined n w w := ⟨fun _ _ => rfl, rfl, rfl, rfl, rfl, rfl, rfl, rfl, rfl, rfl, rfl, rfl, rfl⟩

theorem confined_trans {n : String} (a b c : Mach) (h1 : Confined n a b) (h2 : Confined n b c) : Confined n a c :=
  ⟨fun m hm => (h2.others m hm).trans (h1.others m hm), h2.shape.trans h1.shape, h2.bv.trans h1.bv, h2.rules.trans h1.rules, h2.ordered.trans h1.ordered,
    h2.used.trans h1.used, h2.usedName.trans h1.usedName, h2.lastRule.trans h1.lastRule, h2.lastSlots.trans h1.lastSlots, h2.compile.trans h1.compile,
    h2.procs.trans h1.procs, h2.nextId.trans h1.nextId, h2.dms.trans h1.dms⟩

theorem confined_upd {n : String} {w : Mach} {f : Buf → Buf} (hf : ∀ b, (f b).cls = b.cls) : Confined n w (w.upd n f) := by
  refine ⟨fun m hm => buf_upd_ne w hm f, ?_, ?_, ?_, ?_, ?_, ?_, ?_, ?_, ?_, ?_, ?_, ?_⟩
  · unfold Mach.upd
    split
    · exact shape_aset (hf _) _ (by assumption)
    · rfl
  all_goals rw [upd_eq]

theorem confined_setState {n : String} {w : Mach} {s : Status} : Confined n w (w.setState n s) := confined_upd fun _ => rfl

/-- Changes of other parts. -/
theorem confined_rest {n : String} {w : Mach} (reg : Reg) (mems : List DecMem) (et : List (String × List (String × String))) (cs : SlotVals)
    (i : List String) (mp : Bool) (env : Option Env) (tick : ℕ) :
    Confined n w { w with reg := reg, mems := mems, extraTests := et, curSlots := cs, interaction := i, motorPrepared := mp, env := env, tick := tick } :=
  ⟨fun _ _ => rfl, rfl, rfl, rfl, rfl, rfl, rfl, rfl, rfl, rfl, rfl, rfl, rfl⟩

theorem confined_putBst {n : String} {w : Mach} {st : BState} : Confined n w (w.putBst n st) :=
  confined_trans _ { w with reg := st.reg, mems := st.mems } _ ⟨fun _ _ => rfl, rfl, rfl, rfl, rfl, rfl, rfl, rfl, rfl, rfl, rfl, rfl, rfl⟩
    (confined_upd fun _ => rfl)

theorem confined_onBuf {n : String} {w : Mach} {f : Buf → BState → BResult} : Confined n w (w.onBuf n f).1 := by
  unfold Mach.onBuf
  split
  · exact confined_refl n w
  · exact confined_putBst

/-- After an operation on the buffer, changes of its other attributes. -/
theorem confined_onBuf_upd {n : String} {w w1 : Mach} {f : Buf → BState → BResult} {g : Buf → Buf} {r : Except PyErr Unit} (h : w.onBuf n f = (w1, r))
    (hg : ∀ b, (g b).cls = b.cls) : Confined n w (w1.upd n g) := by
  have := confined_onBuf (n := n) (w := w) (f := f)
  rw [h] at this
  exact confined_trans _ _ _ this (confined_upd hg)

theorem confined_onBuf' {n : String} {w w1 : Mach} {f : Buf → BState → BResult} {r : Except PyErr Unit} (h : w.onBuf n f = (w1, r)) : Confined n w w1 := by
  have := confined_onBuf (n := n) (w := w) (f := f)
  rwa [h] at this

theorem confined_reg {n : String} {w : Mach} {reg : Reg} : Confined n w { w with reg := reg } :=
  ⟨fun _ _ => rfl, rfl, rfl, rfl, rfl, rfl, rfl, rfl, rfl, rfl, rfl, rfl, rfl⟩
theorem confined_reg_tick {n : String} {w : Mach} {reg : Reg} {k : ℕ} : Confined n w { w with reg := reg, tick := k } :=
  ⟨fun _ _ => rfl, rfl, rfl, rfl, rfl, rfl, rfl, rfl, rfl, rfl, rfl, rfl, rfl⟩
theorem confined_cur {n : String} {w : Mach} {s : SlotVals} : Confined n w { w with curSlots := s } :=
  ⟨fun _ _ => rfl, rfl, rfl, rfl, rfl, rfl, rfl, rfl, rfl, rfl, rfl, rfl, rfl⟩

/-- Whatever the machine is when it starts or resumes, each part of the generator moves within `R`. -/
structure StaysIn {A : Type} (R : Mach → Mach → Prop) (g : GenM A) : Prop where
  moves : ∀ w, (g w).Moves R w

section
variable {A B : Type} {n : String}
theorem keeps_bind {g : GenM A} {f : A → GenM B} (hg : StaysIn (Confined n) g) (hf : ∀ a, StaysIn (Confined n) (f a)) : StaysIn (Confined n) (g >>= f) :=
  ⟨fun w => moves_bind confined_trans (hg.moves w) fun a => (hf a).moves⟩
theorem keeps_set {f : Mach → Mach} (h : ∀ w, Confined n w (f w)) : StaysIn (Confined n) (GenM.set f) := ⟨fun w => moves_set (h w)⟩
theorem keeps_act {f : Mach → Mach × Except PyErr A} (h : ∀ w, Confined n w (f w).1) : StaysIn (Confined n) (GenM.act f) := ⟨fun w => moves_act (h w)⟩
theorem keeps_get {f : Mach → A} : StaysIn (Confined n) (GenM.get f) := ⟨fun w => moves_get (confined_refl n) f w⟩
theorem keeps_lift {x : Except PyErr A} : StaysIn (Confined n) (GenM.lift x) := ⟨fun w => moves_lift (confined_refl n) x w⟩
theorem keeps_throw {x : PyErr} : StaysIn (Confined n) (GenM.throw x : GenM A) := ⟨fun w => moves_throw (confined_refl n) x w⟩
theorem keeps_pure {x : A} : StaysIn (Confined n) (Pure.pure x : GenM A) := ⟨fun w => moves_pure (confined_refl n) x w⟩
theorem keeps_event {t : ℚ} {m : String} {a : Act} : StaysIn (Confined n) (GenM.event t m a) := ⟨fun w => moves_event (confined_refl n) t m a w⟩
theorem keeps_yield {y : YV} : StaysIn (Confined n) (GenM.yield y) := ⟨fun w => moves_yield (confined_refl n) y w⟩
end

theorem confined_clearBuf {C : Cfg} {n : String} {v : RVal} {t : ℚ} {w : Mach} : Confined n w (clearBuf C n v t w).1 := by
  have hb : ∀ f, Confined n w (w.onBuf n f).1 := fun f => confined_onBuf
  have ha : ∀ (b : Buf) (i : ℕ), Confined n w (if b.cls = .decmem then (w, .error .type)
      else w.onBuf n (fun b st => st.clear C.P b.cls.kind t (some i)) : Mach × Except PyErr Unit).1 := by
    intro b i
    split
    · exact confined_refl n w
    · exact hb _
  have hn : ∀ (b : Buf), Confined n w (match alook n w.dms with
      | some i => (if b.cls = .decmem then (w, .error .type)
          else w.onBuf n (fun b st => st.clear C.P b.cls.kind t (some i)))
      | Option.none => (w, .error .actr) : Mach × Except PyErr Unit).1 := by
    intro b
    split
    · exact ha _ _
    · exact confined_refl n w
  unfold clearBuf
  dsimp only
  split
  · exact confined_refl n w
  · rename_i b _
    split
    · exact confined_refl n w
    · split
      · exact confined_putBst
      · split
        · exact ha _ _
        · split
          · exact hn _
          · split
            · exact hn _
            · exact confined_refl n w
          · split
            · exact hn _
            · exact confined_refl n w
          · split
            · exact hn _
            · exact confined_refl n w

theorem confined_execAll (C : Cfg) (n : String) : ∀ l w, Confined n w (execAll C n l w).1
  | [], w => confined_refl n w
  | c :: r, w => by
    simp only [execAll]
    split
    · exact confined_refl n w
    · split
      · refine confined_trans _ _ _ ?_ (confined_execAll C n r _)
        exact confined_upd (fun _ => rfl)
      · exact confined_upd fun _ => rfl

theorem confined_modifyBuf {C : Cfg} {n : String} {c : Chunk} {bv : BV} {w : Mach} : Confined n w (modifyBuf C n c bv w).1 := by
  unfold modifyBuf
  split
  · exact confined_refl n w
  · split
    · split
      · exact confined_onBuf_upd (by assumption) fun _ => rfl
      · exact confined_onBuf' (by assumption)
    · exact confined_onBuf

theorem confined_createIn {C : Cfg} {n : String} {c : Chunk} {bv : BV} {w : Mach} : Confined n w (createIn C n c bv w).1 := by
  unfold createIn
  split
  · exact confined_refl n w
  · split
    · exact confined_refl n w
    · split
      · exact confined_refl n w
      · split
        · exact confined_refl n w
        · exact confined_onBuf

theorem confined_firstOf {n m : String} {w : Mach} : Confined n w (firstOf m w).1 := by
  unfold firstOf
  split
  · split <;> exact confined_refl n w
  · exact confined_refl n w

theorem confined_retrieveIn {C : Cfg} {n : String} {c : Chunk} {bv : BV} {t : ℚ} {w : Mach} : Confined n w (retrieveIn C n c bv t w).1 := by
  unfold retrieveIn
  dsimp only
  split
  · exact confined_refl n w
  · split
    · split <;> exact confined_reg
    · refine confined_trans _ _ _ ?_ (confined_upd fun _ => rfl)
      exact ⟨fun _ _ => rfl, rfl, rfl, rfl, rfl, rfl, rfl, rfl, rfl, rfl, rfl, rfl, rfl⟩

theorem confined_findIn {C : Cfg} {n m : String} {c : Chunk} {bv : BV} {w : Mach} : Confined n w (findIn C m c bv w).1 := by
  unfold findIn
  split
  · exact confined_reg
  · exact confined_refl n w

theorem confined_addLocation {C : Cfg} {n : String} {c : Chunk} {s : Option Stim} {t : ℚ} {w : Mach} : Confined n w (addLocation C n c s t w).1 := by
  unfold addLocation
  split
  · exact confined_onBuf_upd (by assumption) fun _ => rfl
  · exact confined_onBuf' (by assumption)

theorem confined_shiftIn {C : Cfg} {n : String} {c : Chunk} {bv : BV} {w : Mach} : Confined n w (shiftIn C c bv w).1 := by
  unfold shiftIn
  split
  · exact confined_refl n w
  · split
    · exact confined_refl n w
    · split
      · exact confined_refl n w
      · exact confined_refl n w
      · split
        · exact confined_reg
        · dsimp only
          split
          · exact confined_reg_tick
          · exact confined_reg

theorem confined_autoBufferLoop (C : Cfg) (n : String) (data : List Chunk) (cf : ℚ × ℚ) : ∀ (l : List Stim) (w : Mach) (acc : Option (Chunk × ℚ)),
    Confined n w (autoBufferLoop C data cf l w acc).1
  | [], w, _ => confined_refl n w
  | s :: r, w, acc => by
    unfold autoBufferLoop
    split
    · exact confined_refl n w
    · split
      · split
        · exact confined_refl n w
        · exact confined_autoBufferLoop C n data cf r _ _
        · split
          · exact confined_reg
          · exact confined_trans _ _ _ confined_reg_tick (confined_autoBufferLoop C n data cf r _ _)
      · exact confined_autoBufferLoop C n data cf r _ _

theorem confined_motorCreateIn {C : Cfg} {n : String} {c : Chunk} {bv : BV} {w : Mach} : Confined n w (motorCreateIn C c bv w).1 := by
  unfold motorCreateIn
  split
  · exact confined_reg
  · split <;> exact confined_reg

/-- Steps of the proofs below: the parts of a generator one by one. -/
macro "confine" : tactic => `(tactic| repeat' with_reducible first
  | exact keeps_event | exact keeps_yield | exact keeps_get | exact keeps_lift | exact keeps_throw | exact keeps_pure
  | exact keeps_act fun _ => confined_clearBuf | exact keeps_act fun _ => confined_modifyBuf | exact keeps_act fun _ => confined_createIn
  | exact keeps_act fun _ => confined_firstOf | exact keeps_act fun _ => confined_retrieveIn | exact keeps_act fun _ => confined_findIn
  | exact keeps_act fun _ => confined_addLocation | exact keeps_act fun _ => confined_shiftIn | exact keeps_act fun _ => confined_motorCreateIn
  | exact keeps_act fun _ => confined_onBuf
  | exact keeps_set fun _ => confined_setState | exact keeps_set fun _ => confined_upd fun _ => rfl
  | assumption
  | refine keeps_bind ?_ fun _ => ?_
  | split)

theorem confined_genClear (C : Cfg) (n : String) (v : RVal) (t : ℚ) (f : Bool) : StaysIn (Confined n) (genClear C n v t f) := by
  have h : StaysIn (Confined n) (GenM.set fun w => if f then w.setState n .free else w) := keeps_set fun w => by
    split
    · exact confined_setState
    · exact confined_refl n w
  unfold genClear
  confine

theorem confined_extraTest (n : String) (v : RVal) (t : ℚ) : StaysIn (Confined n) (genExtraTest n v t) := by
  unfold genExtraTest
  refine keeps_bind (keeps_set fun _ => confined_setState) fun _ => keeps_bind (keeps_set fun w => ?_) fun _ => ?_
  · exact ⟨fun _ _ => rfl, rfl, rfl, rfl, rfl, rfl, rfl, rfl, rfl, rfl, rfl, rfl, rfl⟩
  · confine

theorem confined_execute (C : Cfg) (n : String) (v : RVal) (t : ℚ) : StaysIn (Confined n) (genExecute C n v t) := by
  unfold genExecute
  refine keeps_bind (keeps_set fun _ => confined_setState) fun _ => keeps_bind (keeps_act fun w => ?_) fun _ => ?_
  · split
    · exact confined_execAll ..
    · exact confined_refl n w
  · confine

theorem confined_recordModify (C : Cfg) (n m : String) (c : Chunk) : StaysIn (Confined n) (recordModify C m c) := by
  unfold recordModify
  refine keeps_act fun w => ?_
  split
  · split
    · exact confined_refl n w
    · exact confined_cur
  · exact confined_refl n w

theorem confined_recordSet (C : Cfg) (n m : String) (c : Chunk) : StaysIn (Confined n) (recordSet C m c) := by
  unfold recordSet
  refine keeps_set fun w => ?_
  split
  · exact confined_cur
  · exact confined_refl n w

theorem confined_recordRetrieved (C : Cfg) (n m : String) (c : Chunk) (r : Option Chunk) : StaysIn (Confined n) (recordRetrieved C m c r) := by
  unfold recordRetrieved
  refine keeps_set fun w => ?_
  split
  · exact confined_cur
  · exact confined_refl n w

theorem confined_modify (C : Cfg) (n : String) (v : RVal) (bv : BV) (t : ℚ) : StaysIn (Confined n) (genModify C n v bv t) := by
  have h := fun c => confined_recordModify C n n c
  unfold genModify
  repeat' with_reducible first | exact h _ | (confine; done) | refine keeps_bind ?_ fun _ => ?_

theorem confined_modifyRequest (C : Cfg) (n : String) (v : RVal) (bv : BV) (t : ℚ) : StaysIn (Confined n) (genModifyRequest C n v bv t) := by
  have h := fun c => confined_recordModify C n n c
  unfold genModifyRequest
  repeat' with_reducible first | exact h _ | (confine; done) | refine keeps_bind ?_ fun _ => ?_

theorem confined_overwrite (C : Cfg) (n : String) (v : RVal) (bv : BV) (t : ℚ) : StaysIn (Confined n) (genOverwrite C n v bv t) := by
  have h := fun c => confined_recordSet C n n c
  unfold genOverwrite
  repeat' with_reducible first | exact h _ | (confine; done) | refine keeps_bind ?_ fun _ => ?_

theorem confined_immediate (C : Cfg) (k : Key) (v : RVal) (bv : BV) (t : ℚ) : StaysIn (Confined k.name) (immediate C k v bv t) := by
  unfold immediate
  split_ifs
  · exact confined_extraTest ..
  · exact confined_execute ..
  · exact confined_modify ..
  · exact confined_overwrite ..
  · exact confined_genClear ..

/-! ## Requests -/

theorem confined_setGoal (C : Cfg) (n : String) (v : RVal) (bv : BV) (t : ℚ) : StaysIn (Confined n) (genSetGoal C n v bv t) := by
  have h := fun c => confined_recordSet C n n c
  have h' := confined_genClear C n v t false
  unfold genSetGoal
  repeat' with_reducible first | exact h _ | exact h' | (confine; done) | refine keeps_bind ?_ fun _ => ?_

theorem confined_retrieve (C : Cfg) (n : String) (v : RVal) (bv : BV) (t : ℚ) : StaysIn (Confined n) (genRetrieve C n v bv t) := by
  have h := fun c r => confined_recordRetrieved C n n c r
  unfold genRetrieve
  repeat' with_reducible first | exact h _ _ | (confine; done) | refine keeps_bind ?_ fun _ => ?_ | split

theorem confined_findLocation (C : Cfg) (n : String) (v : RVal) (bv : BV) (t : ℚ) : StaysIn (Confined n) (genFindLocation C n v bv t) := by
  have h := confined_genClear C n .nothing t false
  unfold genFindLocation
  confine

theorem confined_visualencode (C : Cfg) (n : String) (c : Chunk) (t x : ℚ) (s : ℚ × ℚ) : StaysIn (Confined n) (genVisualencode C n c t x s) := by
  have h := confined_genClear C n .nothing (t + x) false
  unfold genVisualencode
  confine

theorem confined_visualshift (C : Cfg) (n : String) (v : RVal) (bv : BV) (t : ℚ) : StaysIn (Confined n) (genVisualshift C n v bv t) := by
  have h := fun c t x s => confined_visualencode C n c t x s
  unfold genVisualshift
  repeat' with_reducible first | exact h _ _ _ _ | (confine; done) | refine keeps_bind ?_ fun _ => ?_ | split

theorem confined_visualcontinue (C : Cfg) (n : String) (c : Chunk) (bv : BV) (t : ℚ) (ts : ℚ × ℚ × ℚ) (s : ℚ × ℚ) :
    StaysIn (Confined n) (genVisualcontinue C n c bv t ts s) := by
  have h := fun c t x s => confined_visualencode C n c t x s
  have h' : StaysIn (Confined n) (GenM.set (fun w =>
      ({ w with env := w.env.map (fun e => { e with focus := ((truncQ s.1 : ℚ), (truncQ s.2 : ℚ)) }) } : Mach).upd n
        (fun b => { b with focus := ((truncQ s.1 : ℚ), (truncQ s.2 : ℚ)) }))) := keeps_set fun w => by
    refine confined_trans _ { w with env := w.env.map (fun e => { e with focus := ((truncQ s.1 : ℚ), (truncQ s.2 : ℚ)) }) } _ ?_
      (confined_upd fun _ => rfl)
    exact ⟨fun _ _ => rfl, rfl, rfl, rfl, rfl, rfl, rfl, rfl, rfl, rfl, rfl, rfl, rfl⟩
  unfold genVisualcontinue
  repeat' with_reducible first | exact h _ _ _ _ | exact h' | (confine; done) | refine keeps_bind ?_ fun _ => ?_ | split

theorem confined_visual (C : Cfg) (n : String) (v : RVal) (bv : BV) (t : ℚ) : StaysIn (Confined n) (genVisual C n v bv t) := by
  have h := confined_visualshift C n v bv t
  unfold genVisual
  confine

theorem confined_autoSearch (C : Cfg) (n : String) (s : List Stim) (t : ℚ) : StaysIn (Confined n) (genAutoSearch C n s t) := by
  unfold genAutoSearch
  refine keeps_bind (keeps_set fun _ => confined_setState) fun _ => keeps_bind (keeps_act fun w => ?_) fun r => ?_
  · split
    · split
      · exact confined_reg
      · exact confined_refl n w
    · exact confined_refl n w
  · confine
    refine keeps_act fun w => ?_
    split
    · exact confined_onBuf_upd (by assumption) fun _ => rfl
    · exact confined_onBuf' (by assumption)

theorem confined_autoBuffer (C : Cfg) (n : String) (s : List Stim) (t : ℚ) : StaysIn (Confined n) (genAutoBuffer C n s t) := by
  unfold genAutoBuffer
  refine keeps_bind (keeps_set fun _ => confined_upd fun _ => rfl) fun _ => keeps_bind (keeps_act fun w => ?_) fun r => ?_
  · split
    · exact confined_autoBufferLoop ..
    · exact confined_refl n w
  · confine

theorem confined_motorset (C : Cfg) (n : String) (v : RVal) (bv : BV) (t : ℚ) : StaysIn (Confined n) (genMotorset C n v bv t) := by
  unfold genMotorset
  refine keeps_bind keeps_lift fun _ => keeps_bind (keeps_act fun _ => confined_motorCreateIn) fun m => keeps_bind keeps_get fun _ =>
    keeps_bind (keeps_set fun w => ?_) fun _ => ?_
  · split
    · exact ⟨fun _ _ => rfl, rfl, rfl, rfl, rfl, rfl, rfl, rfl, rfl, rfl, rfl, rfl, rfl⟩
    · exact confined_refl n w
  · confine

theorem confined_motorcontinue (n : String) (k : String) (t : ℚ) (pr : ℚ × ℚ × ℚ × ℚ) : StaysIn (Confined n) (genMotorcontinue n k t pr) := by
  have h : StaysIn (Confined n) (GenM.set (fun w => { w with interaction := addStr w.interaction k })) := keeps_set fun w =>
    ⟨fun _ _ => rfl, rfl, rfl, rfl, rfl, rfl, rfl, rfl, rfl, rfl, rfl, rfl, rfl⟩
  unfold genMotorcontinue
  confine

theorem confined_retrieveorset (C : Cfg) (n : String) (v : RVal) (bv : BV) (t : ℚ) : StaysIn (Confined n) (genRetrieveorset C n v bv t) := by
  have h1 := confined_setGoal C n v bv t
  have h2 := confined_retrieve C n v bv t
  have h3 := confined_motorset C n v bv t
  have h4 := confined_visual C n v bv t
  have h5 := confined_findLocation C n v bv t
  unfold genRetrieveorset
  confine

/-- Every process leaves alone everything but its own buffer and what modules share. -/
theorem confined_run (C : Cfg) (d : Desc) : StaysIn (Confined (worksFor d)) (d.run C) := by
  cases d with
  | retrieveorset n v bv t => exact confined_retrieveorset ..
  | modifyRequest n v bv t => exact confined_modifyRequest ..
  | clear n bv t => exact confined_genClear ..
  | autoSearch n s t => exact confined_autoSearch ..
  | autoBuffer n s t => exact confined_autoBuffer ..
  | visualContinue n c bv t ts s => exact confined_visualcontinue ..
  | motorContinue n k t pr => exact confined_motorcontinue ..

end Verif
