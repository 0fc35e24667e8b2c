import Verif.Lemmas.Dates
/-! # Processes put nothing into memory before its time -/
namespace Verif
open Verif.Spec

variable {A B : Type} {C : Cfg} {L T : ℚ} {w w' : Mach} {n : String}

/-- Encoding is not announced more than `L` in advance. -/
def Encodes (C : Cfg) (L : ℚ) : Prop := ∀ c bv w w' r, shiftIn C c bv w = (w', .ok r) →
  0 ≤ r.2.1.2.1 + r.2.1.2.2 ∧ ∀ t x, x ≤ r.2.1.1 → round4 (t + x) ≤ round4 t + L

/-- A process that can be started at the time `T`. -/
def DescBy (C : Cfg) (L T : ℚ) : Desc → Prop
  | .retrieveorset _ _ _ t => round4 t ≤ T
  | .clear _ _ t => round4 t ≤ T
  | .autoSearch _ _ t => round4 t ≤ T
  | .visualContinue _ _ _ _ ts _ => Encodes C L ∧ 0 ≤ ts.2.1 + ts.2.2
  | _ => True

theorem descBy_mono {T' : ℚ} {d : Desc} (h : DescBy C L T d) (ht : T ≤ T') : DescBy C L T' d := by
  cases d <;> first | exact h | exact le_trans h ht

/-- The state of the model at the time `T`: nothing in memory is more than `L` ahead. -/
structure Dated (C : Cfg) (L T : ℚ) (w : Mach) : Prop where
  traces : ∀ q, Remembered w q → q ≤ T + L
  procs : ∀ n i d, .gen n i d ∈ w.procs → DescBy C L T d
  sight : ∀ n, (n, BufClass.visual) ∈ w.bufs.map (fun p => (p.1, p.2.cls)) → Encodes C L

theorem dated_mono {T' : ℚ} (h : Dated C L T w) (ht : T ≤ T') : Dated C L T' w :=
  ⟨fun q hq => le_trans (h.traces q hq) (by linarith), fun n i d hm => descBy_mono (h.procs n i d hm) ht, h.sight⟩

theorem dated_new (h : Dated C L T w) (hm : NewBy (T + L) w.mems w'.mems) (hp : ∀ n i d, .gen n i d ∈ w'.procs → .gen n i d ∈ w.procs ∨ DescBy C L T d)
    (hs : w'.bufs.map (fun p => (p.1, p.2.cls)) = w.bufs.map (fun p => (p.1, p.2.cls))) : Dated C L T w' := by
  refine ⟨fun q hq => ?_, fun n i d hd => (hp n i d hd).elim (h.procs n i d) id, fun n hn => h.sight n (hs ▸ hn)⟩
  obtain ⟨m, hmm, x, s, hx, hq⟩ := hq
  exact (hm m hmm x s hx q hq).elim (h.traces q) id

theorem dated_confined (h : Dated C L T w) (hc : Confined n w w') (hm : NewBy (T + L) w.mems w'.mems) : Dated C L T w' :=
  dated_new h hm (fun _ _ _ hd => .inl (hc.procs ▸ hd)) hc.shape

theorem dated_same (h : Dated C L T w) (h1 : w'.mems = w.mems) (h2 : w'.procs = w.procs) (h3 : w'.bufs = w.bufs) : Dated C L T w' :=
  dated_new h (newBy_eq h1) (fun _ _ _ hd => .inl (h2 ▸ hd)) (by rw [h3])

/-! ## Processes -/

/-- The process, resumed at the time `T`, never is ahead of the clock, and when it ends there is `Q`. -/
def Punct (C : Cfg) (L : ℚ) (Q : ℚ → A → Prop) : ℚ → Out Mach YV A → Prop
  | T, .yield w (.ev e) k => Dated C L T w ∧ ∀ T', T ≤ T' → e.time ≤ T' → ∀ w', Dated C L T' w' → Punct C L Q T' (k w')
  | T, .yield w (.cont d) _ => Dated C L T w ∧ DescBy C L T d
  | T, .yield w .procs _ => Dated C L T w
  | T, .yield w .nothing _ => Dated C L T w
  | T, .ret w a => Dated C L T w ∧ Q T a
  | T, .raise w _ => Dated C L T w

variable {Q : ℚ → A → Prop} {Q' : ℚ → B → Prop}

theorem punct_bind {f : A → GenM B} {o : Out Mach YV A} : ∀ {T : ℚ}, Punct C L Q T o → (∀ T' w a, T ≤ T' → Dated C L T' w → Q T' a → Punct C L Q' T' (f a w)) → Punct C L Q' T (o.bind f) := by
  induction o with
  | yield w1 y k ih =>
    intro T h hf
    cases y with
    | ev e => exact ⟨h.1, fun T' h1 h2 w' hw' => ih w' (h.2 T' h1 h2 w' hw') fun T2 w2 a h3 => hf T2 w2 a (le_trans h1 h3)⟩
    | cont d => exact h
    | procs => exact h
    | nothing => exact h
  | ret w1 a => intro T h hf; exact hf T w1 a le_rfl h.1 h.2
  | raise w1 e => exact fun h _ => h

/-- The same for a process that begins or goes on at the time `T`. -/
def Tm (C : Cfg) (L T : ℚ) (g : GenM A) (Q : ℚ → A → Prop) : Prop := ∀ w, Dated C L T w → Punct C L Q T (g w)

theorem tm_bind {g : GenM A} {f : A → GenM B} (hg : Tm C L T g Q) (hf : ∀ T' a, T ≤ T' → Q T' a → Tm C L T' (f a) Q') : Tm C L T (g >>= f) Q' :=
  fun w hw => punct_bind (hg w hw) fun T' w' a h1 h2 h3 => hf T' a h1 h3 w' h2

/-- Nothing is said about the end. -/
abbrev Anyhow : ℚ → A → Prop := fun _ _ => True

theorem punct_weaken {o : Out Mach YV A} : ∀ {T : ℚ}, Punct C L Q T o → Punct C L Anyhow T o := by
  induction o with
  | yield w1 y k ih =>
    intro T h
    cases y with
    | ev e => exact ⟨h.1, fun T' h1 h2 w' hw' => ih w' (h.2 T' h1 h2 w' hw')⟩
    | cont d => exact h
    | procs => exact h
    | nothing => exact h
  | ret w1 a => exact fun h => ⟨h.1, trivial⟩
  | raise w1 e => exact fun h => h

theorem tm_weaken {g : GenM A} (h : Tm C L T g Q) : Tm C L T g Anyhow := fun w hw => punct_weaken (h w hw)

theorem tm_then {g : GenM A} {f : A → GenM B} (hg : Tm C L T g Anyhow) (hf : ∀ T' a, T ≤ T' → Tm C L T' (f a) Q') : Tm C L T (g >>= f) Q' :=
  tm_bind hg fun T' a h _ => hf T' a h

theorem tm_pure {a : A} (h : Q T a) : Tm C L T (Pure.pure a) Q := fun _ hw => ⟨hw, h⟩
theorem tm_pure' {a : A} (h : Q T a) : Tm C L T (GenM.pure a) Q := fun _ hw => ⟨hw, h⟩
theorem tm_throw {e : PyErr} : Tm C L T (GenM.throw e) Q := fun _ hw => hw
theorem tm_get {f : Mach → A} : Tm C L T (GenM.get f) Anyhow := fun _ hw => ⟨hw, trivial⟩
theorem tm_lift {x : Except PyErr A} : Tm C L T (GenM.lift x) Anyhow := fun w hw => by
  rcases x with e | a
  · exact hw
  · exact ⟨hw, trivial⟩
theorem tm_event {t : ℚ} {m : String} {a : Act} : Tm C L T (GenM.event t m a) (fun T' _ => round4 t ≤ T') := fun _ hw => ⟨hw, fun _ _ h _ hw' => ⟨hw', h⟩⟩
theorem tm_report {t : ℚ} {m : String} {a : Act} : Tm C L T (GenM.event t m a) Anyhow := tm_weaken tm_event
theorem tm_nothing {Q : ℚ → Unit → Prop} : Tm C L T (GenM.yield .nothing) Q := fun _ hw => hw
theorem tm_procs {Q : ℚ → Unit → Prop} : Tm C L T (GenM.yield .procs) Q := fun _ hw => hw
theorem tm_cont {Q : ℚ → Unit → Prop} {d : Desc} (h : DescBy C L T d) : Tm C L T (GenM.yield (.cont d)) Q := fun _ hw => ⟨hw, h⟩
theorem tm_set {f : Mach → Mach} (h : ∀ w, Dated C L T w → Dated C L T (f w)) : Tm C L T (GenM.set f) Anyhow := fun w hw => ⟨h w hw, trivial⟩
theorem tm_act {f : Mach → Mach × Except PyErr A} (h : ∀ w, Dated C L T w → Dated C L T (f w).1) : Tm C L T (GenM.act f) Anyhow := fun w hw => by
  have := h w hw
  show Punct C L Anyhow T (match f w with | (w', .ok a) => .ret w' a | (w', .error e) => .raise w' e)
  rcases hf : f w with ⟨w1, e | a⟩
  · rw [hf] at this; exact this
  · rw [hf] at this; exact ⟨this, trivial⟩
theorem tm_acts {f : Mach → Mach × Except PyErr A} {q : A → Prop} (h : ∀ w, Dated C L T w → Dated C L T (f w).1) (hq : ∀ w w' a, f w = (w', .ok a) → q a) : Tm C L T (GenM.act f) (fun _ a => q a) := fun w hw => by
  have := h w hw
  show Punct C L _ T (match f w with | (w', .ok a) => .ret w' a | (w', .error e) => .raise w' e)
  rcases hf : f w with ⟨w1, e | a⟩
  · rw [hf] at this; exact this
  · rw [hf] at this; exact ⟨this, hq w w1 a hf⟩
theorem tm_upd {f : Buf → Buf} (h : ∀ b, (f b).cls = b.cls) : Tm C L T (GenM.set (fun w => w.upd n f)) Anyhow := tm_set fun w hw => dated_confined hw (confined_upd h) (newBy_eq (upd_mems ..))
theorem tm_setState {x : Status} : Tm C L T (GenM.set (fun w => w.setState n x)) Anyhow := tm_upd fun _ => rfl
theorem tm_ite {c : Prop} [Decidable c] {g g' : GenM A} (h1 : c → Tm C L T g Q) (h2 : ¬ c → Tm C L T g' Q) : Tm C L T (if c then g else g') Q := by
  split
  · exact h1 ‹_›
  · exact h2 ‹_›

theorem tm_clearBuf {v : RVal} {t : ℚ} (ht : round4 t ≤ T + L) : Tm C L T (GenM.act (clearBuf C n v t)) Anyhow := tm_act fun _ hw => dated_confined hw confined_clearBuf (newBy_clearBuf ht)
theorem tm_modifyBuf {c : Chunk} {bv : BV} : Tm C L T (GenM.act (modifyBuf C n c bv)) Anyhow := tm_act fun _ hw => dated_confined hw confined_modifyBuf (newBy_eq (modifyBuf_mems ..))
theorem tm_createIn {c : Chunk} {bv : BV} : Tm C L T (GenM.act (createIn C n c bv)) Anyhow := tm_act fun _ hw => dated_confined hw confined_createIn (newBy_eq (createIn_mems ..))
theorem tm_firstOf : Tm C L T (GenM.act (firstOf n)) Anyhow := tm_act fun _ hw => dated_confined hw (confined_firstOf (n := n)) (newBy_eq (firstOf_mems ..))
theorem tm_findIn {c : Chunk} {bv : BV} : Tm C L T (GenM.act (findIn C n c bv)) Anyhow := tm_act fun _ hw => dated_confined hw (confined_findIn (n := n)) (newBy_eq (findIn_mems ..))
theorem tm_retrieveIn {c : Chunk} {bv : BV} {t : ℚ} : Tm C L T (GenM.act (retrieveIn C n c bv t)) Anyhow := tm_act fun _ hw => dated_confined hw confined_retrieveIn newBy_retrieveIn
theorem tm_addLocation {c : Chunk} {s : Option Stim} {t : ℚ} (ht : round4 t ≤ T + L) : Tm C L T (GenM.act (addLocation C n c s t)) Anyhow :=
  tm_act fun _ hw => dated_confined hw confined_addLocation (newBy_addLocation ht)
theorem tm_shiftIn {n : String} (he : Encodes C L) {c : Chunk} {bv : BV} : Tm C L T (GenM.act (shiftIn C c bv)) (fun _ r => 0 ≤ r.2.1.2.1 + r.2.1.2.2 ∧ ∀ t x, x ≤ r.2.1.1 → round4 (t + x) ≤ round4 t + L) :=
  tm_acts (fun w hw => dated_confined hw (confined_shiftIn (n := n)) (newBy_eq (shiftIn_mems C c bv w))) fun w w' r h => he c bv w w' r h
theorem tm_motorCreateIn {n : String} {c : Chunk} {bv : BV} : Tm C L T (GenM.act (motorCreateIn C c bv)) Anyhow := tm_act fun _ hw => dated_confined hw (confined_motorCreateIn (n := n)) (newBy_eq (motorCreateIn_mems ..))
theorem tm_add {e : Option Chunk} {t : ℚ} (ht : round4 t ≤ T + L) : Tm C L T (GenM.act (fun w => w.onBuf n (fun b st => st.add C.P b.cls.kind e t Option.none))) Anyhow :=
  tm_act fun _ hw => dated_confined hw confined_onBuf (newBy_onBuf fun _ _ => newBy_add ht)

/-- The parts of a generator one by one. -/
macro "timely" : tactic => `(tactic| repeat' with_reducible first
  | exact tm_pure trivial | exact tm_throw | exact tm_get | exact tm_lift | exact tm_report | exact tm_nothing | exact tm_procs
  | exact tm_setState | exact tm_upd fun _ => rfl | exact tm_modifyBuf | exact tm_createIn | exact tm_firstOf | exact tm_findIn | exact tm_retrieveIn | exact tm_motorCreateIn (n := "")
  | assumption
  | refine tm_then ?_ fun _ _ _ => ?_
  | split)

/-! ## Modules -/

theorem tm_clear (hL : 0 ≤ L) {v : RVal} {t : ℚ} {f : Bool} (ht : round4 t ≤ T + L) : Tm C L T (genClear C n v t f) Anyhow := by
  unfold genClear
  refine tm_then tm_setState fun T1 _ h1 => tm_then (tm_clearBuf (by linarith)) fun T2 _ h2 => tm_then tm_report fun T3 _ h3 => ?_
  cases f
  · exact tm_set fun w hw => hw
  · exact tm_setState

theorem tm_extraTest {v : RVal} {t : ℚ} : Tm C L T (genExtraTest n v t) Anyhow := by
  unfold genExtraTest
  refine tm_then tm_setState fun _ _ _ => tm_then (tm_set fun w hw => dated_same hw rfl rfl rfl) fun _ _ _ => ?_
  timely

theorem tm_execute {v : RVal} {t : ℚ} : Tm C L T (genExecute C n v t) Anyhow := by
  unfold genExecute
  refine tm_then tm_setState fun _ _ _ => tm_then (tm_act fun w hw => ?_) fun _ _ _ => ?_
  · split
    · exact dated_confined hw (confined_execAll C n _ w) (newBy_eq (execAll_mems ..))
    · exact hw
  · timely

theorem tm_recordModify {c : Chunk} : Tm C L T (recordModify C n c) Anyhow := by
  unfold recordModify
  refine tm_act fun w hw => ?_
  split
  · split
    · exact hw
    · exact dated_same hw rfl rfl rfl
  · exact hw

theorem tm_recordSet {c : Chunk} : Tm C L T (recordSet C n c) Anyhow := by
  unfold recordSet
  refine tm_set fun w hw => ?_
  split
  · exact dated_same hw rfl rfl rfl
  · exact hw

theorem tm_recordRetrieved {c : Chunk} {r : Option Chunk} : Tm C L T (recordRetrieved C n c r) Anyhow := by
  unfold recordRetrieved
  refine tm_set fun w hw => ?_
  split
  · exact dated_same hw rfl rfl rfl
  · exact hw

theorem tm_modify {v : RVal} {bv : BV} {t : ℚ} : Tm C L T (genModify C n v bv t) Anyhow := by
  unfold genModify
  refine tm_then tm_setState fun _ _ _ => tm_then tm_lift fun _ _ _ => tm_then tm_recordModify fun _ _ _ => ?_
  timely

theorem tm_modifyRequest {v : RVal} {bv : BV} {t : ℚ} : Tm C L T (genModifyRequest C n v bv t) Anyhow := by
  unfold genModifyRequest
  refine tm_then tm_setState fun _ _ _ => tm_then tm_get fun _ _ _ => tm_then tm_report fun _ _ _ => tm_then tm_lift fun _ _ _ => tm_then tm_recordModify fun _ _ _ => ?_
  timely

theorem tm_overwrite {v : RVal} {bv : BV} {t : ℚ} : Tm C L T (genOverwrite C n v bv t) Anyhow := by
  unfold genOverwrite
  refine tm_then tm_setState fun _ _ _ => tm_then tm_get fun _ _ _ => tm_then tm_report fun _ _ _ => tm_then tm_lift fun _ _ _ => tm_then tm_recordSet fun _ _ _ => ?_
  timely

theorem tm_setGoal (hL : 0 ≤ L) {v : RVal} {bv : BV} {t : ℚ} (ht : round4 t ≤ T) : Tm C L T (genSetGoal C n v bv t) Anyhow := by
  unfold genSetGoal
  refine tm_then (tm_clear hL (by linarith)) fun _ _ _ => tm_then tm_get fun _ _ _ => tm_then tm_report fun _ _ _ => tm_then tm_lift fun _ _ _ => tm_then tm_recordSet fun _ _ _ => ?_
  timely

theorem tm_retrieve (hL : 0 ≤ L) {v : RVal} {bv : BV} {t : ℚ} : Tm C L T (genRetrieve C n v bv t) Anyhow := by
  unfold genRetrieve
  refine tm_then tm_report fun T1 _ _ => tm_then tm_lift fun T2 c _ => tm_then tm_retrieveIn fun T3 r _ => tm_bind tm_event fun T4 _ _ h4 => ?_
  split
  · refine tm_then tm_setState fun _ _ _ => tm_then tm_recordRetrieved fun _ _ _ => tm_report
  · refine tm_then tm_report fun T5 _ h5 => tm_then (tm_add (by linarith)) fun _ _ _ => tm_then tm_setState fun _ _ _ => tm_then tm_recordRetrieved fun _ _ _ => tm_report

theorem tm_findLocation (hL : 0 ≤ L) {v : RVal} {bv : BV} {t : ℚ} : Tm C L T (genFindLocation C n v bv t) Anyhow := by
  unfold genFindLocation
  refine tm_bind tm_event fun T1 _ _ h1 => tm_then tm_lift fun T2 c h2 => tm_then tm_findIn fun T3 r h3 => ?_
  split
  · split
    · timely
    · exact tm_then (tm_clear hL (by linarith)) fun T4 _ h4 => tm_then (tm_addLocation (by linarith)) fun _ _ _ => tm_then tm_setState fun _ _ _ => tm_report
  · timely

theorem tm_encode (hL : 0 ≤ L) {c : Chunk} {t x : ℚ} {site : ℚ × ℚ} (h : round4 (t + x) ≤ T + L) : Tm C L T (genVisualencode C n c t x site) Anyhow := by
  unfold genVisualencode
  refine tm_then tm_setState fun T1 _ h1 => tm_then (tm_upd fun _ => rfl) fun T2 _ h2 => tm_then (tm_clear hL (by linarith)) fun T3 _ h3 => tm_then (tm_add (by linarith)) fun _ _ _ => ?_
  timely

theorem tm_visualshift (hL : 0 ≤ L) (he : Encodes C L) {v : RVal} {bv : BV} {t : ℚ} : Tm C L T (genVisualshift C n v bv t) Anyhow := by
  unfold genVisualshift
  refine tm_then tm_lift fun T1 c _ => tm_bind (tm_shiftIn (n := n) he) fun T2 s h2 hs => tm_then (tm_upd fun _ => rfl) fun T3 _ h3 => tm_bind tm_event fun T4 _ h4 h4' => ?_
  have hd : ∀ T', DescBy C L T' (.visualContinue n s.1 bv (t + s.2.1.2.1) s.2.1 s.2.2) := fun _ => ⟨he, hs.1⟩
  have h1 : ∀ T', round4 t ≤ T' → round4 (t + s.2.1.1) ≤ T' + L := fun T' h => by have := hs.2 t _ le_rfl; linarith
  dsimp only
  refine tm_ite (fun _ => tm_then (tm_encode hL (h1 T4 h4')) fun T5 _ h5 => tm_then tm_report fun T6 _ h6 => ?_) fun _ => tm_then tm_report fun T6 _ h6 => ?_
  all_goals
    refine tm_ite (fun _ => tm_then (tm_encode hL ?_) fun _ _ _ => tm_cont (hd _)) fun _ => tm_cont (hd _)
    rw [add_sub_cancel_right]
    exact h1 T6 (by linarith)

theorem tm_visual (hL : 0 ≤ L) (he : Encodes C L) {v : RVal} {bv : BV} {t : ℚ} : Tm C L T (genVisual C n v bv t) Anyhow := by
  unfold genVisual
  refine tm_then tm_lift fun T1 c _ => tm_then tm_lift fun T2 mods _ => ?_
  split
  · exact tm_throw
  · split
    · exact tm_throw
    · split
      · exact tm_then (tm_visualshift hL he) fun _ _ _ => tm_nothing
      · timely

theorem tm_visualcontinue (hL : 0 ≤ L) {c : Chunk} {bv : BV} {t : ℚ} {ts : ℚ × ℚ × ℚ} {site : ℚ × ℚ} (he : Encodes C L) (ht : 0 ≤ ts.2.1 + ts.2.2) :
    Tm C L T (genVisualcontinue C n c bv t ts site) Anyhow := by
  unfold genVisualcontinue
  refine tm_then (tm_upd fun _ => rfl) fun T1 _ _ => tm_then tm_get fun T2 last _ => ?_
  dsimp only
  generalize (if t < last then last else t) + ts.2.2 = t'
  refine tm_then (tm_upd fun _ => rfl) fun T3 _ _ => tm_bind tm_event fun T4 _ _ h4 => tm_then (tm_set fun w hw => ?_) fun T5 _ h5 => tm_then tm_get fun T6 _ h6 => tm_then tm_report fun T7 _ h7 => ?_
  · exact dated_confined (w := { w with env := w.env.map (fun e => { e with focus := ((truncQ site.1 : ℚ), (truncQ site.2 : ℚ)) }) }) (dated_same hw rfl rfl rfl) (confined_upd fun _ => rfl) (newBy_eq (upd_mems ..))
  · split
    · rename_i hlt
      refine tm_bind (tm_shiftIn (n := n) he) fun T8 s h8 hs => ?_
      split
      · exact tm_then tm_throw fun _ _ _ => tm_upd fun _ => rfl
      · rename_i h0
        refine tm_then (tm_encode hL ?_) fun _ _ _ => tm_upd fun _ => rfl
        have hpos : 0 < ts.1 := lt_of_le_of_lt ht hlt
        have hr0 : 0 ≤ (ts.2.1 + ts.2.2) / ts.1 := div_nonneg ht hpos.le
        have hr1 : (ts.2.1 + ts.2.2) / ts.1 < 1 := (div_lt_one hpos).2 hlt
        generalize (ts.2.1 + ts.2.2) / ts.1 = r at hr0 hr1
        rcases le_total 0 s.2.1.1 with h | h
        · have := hs.2 t' ((1 - r) * s.2.1.1) (by nlinarith)
          linarith
        · have := round4_mono (x := t' + (1 - r) * s.2.1.1) (y := t') (by nlinarith)
          linarith
    · exact tm_upd fun _ => rfl

theorem tm_autoSearch (hL : 0 ≤ L) {stims : List Stim} {t : ℚ} (ht : round4 t ≤ T) : Tm C L T (genAutoSearch C n stims t) Anyhow := by
  unfold genAutoSearch
  refine tm_then tm_setState fun T1 _ h1 => tm_then (tm_act fun w hw => ?_) fun T2 r h2 => ?_
  · split
    · split
      · exact dated_same hw rfl rfl rfl
      · exact hw
    · exact hw
  · split
    · split
      · exact tm_report
      · refine tm_then tm_get fun T3 full h3 => ?_
        split
        · refine tm_then (tm_act fun w hw => ?_) fun _ _ _ => tm_report
          have hm : ∀ c, (w.onBuf n (fun _ st => st.modify C.P c BV.init)).1.mems = w.mems := fun c => onBuf_mems fun _ st => modify_mems _ st _ _
          split
          · rename_i hw1
            have := congrArg (fun r => r.1.mems) hw1
            rw [hm] at this
            exact dated_confined hw (confined_onBuf_upd hw1 fun _ => rfl) (newBy_eq (by rw [upd_mems]; exact this.symm))
          · rename_i hw1
            have := congrArg (fun r => r.1.mems) hw1
            rw [hm] at this
            exact dated_confined hw (confined_onBuf' hw1) (newBy_eq this.symm)
        · exact tm_then (tm_addLocation (by linarith)) fun _ _ _ => tm_report
    · exact tm_report

theorem tm_autoBuffer (hL : 0 ≤ L) {stims : List Stim} {t : ℚ} : Tm C L T (genAutoBuffer C n stims t) Anyhow := by
  unfold genAutoBuffer
  refine tm_then (tm_upd fun _ => rfl) fun T1 _ h1 => tm_then (tm_act fun w hw => ?_) fun T2 r h2 => ?_
  · split
    · exact dated_confined hw (confined_autoBufferLoop C n _ _ _ w _) (newBy_eq (autoBufferLoop_mems ..))
    · exact hw
  · dsimp only
    refine tm_bind tm_event fun T3 _ h3 h3' => tm_then (tm_upd fun _ => rfl) fun T4 _ h4 => ?_
    split
    · split
      · exact tm_pure trivial
      · refine tm_then (tm_act fun w hw => dated_confined hw confined_onBuf (newBy_onBuf fun b st => ?_)) fun _ _ _ => tm_report
        split
        · exact newBy_add (by linarith)
        · exact newBy_eq (modify_mems ..)
    · exact tm_pure trivial

theorem tm_motorset {v : RVal} {bv : BV} {t : ℚ} : Tm C L T (genMotorset C n v bv t) Anyhow := by
  unfold genMotorset
  refine tm_then tm_lift fun _ _ _ => tm_then (tm_motorCreateIn (n := n)) fun _ m _ => tm_then tm_get fun _ _ _ => tm_then (tm_set fun w hw => ?_) fun _ _ _ => tm_then (tm_upd fun _ => rfl) fun _ _ _ =>
    tm_then tm_report fun _ _ _ => tm_then tm_report fun _ _ _ => tm_cont trivial
  split
  · exact dated_same hw rfl rfl rfl
  · exact hw

theorem tm_motorcontinue {k : String} {t : ℚ} {pr : ℚ × ℚ × ℚ × ℚ} : Tm C L T (genMotorcontinue n k t pr) Anyhow := by
  unfold genMotorcontinue
  refine tm_then tm_get fun _ _ _ => ?_
  dsimp only
  refine tm_then (tm_upd fun _ => rfl) fun _ _ _ => tm_then tm_report fun _ _ _ => tm_then (tm_upd fun _ => rfl) fun _ _ _ => tm_then tm_report fun _ _ _ =>
    tm_then (tm_set fun w hw => dated_same hw rfl rfl rfl) fun _ _ _ => ?_
  timely

theorem buf_cls_mem {b : Buf} (h : w.buf n = some b) : (n, b.cls) ∈ w.bufs.map (fun p => (p.1, p.2.cls)) :=
  List.mem_map.2 ⟨(n, b), alook_mem h, rfl⟩

theorem tm_retrieveorset (hL : 0 ≤ L) {v : RVal} {bv : BV} {t : ℚ} (ht : round4 t ≤ T) : Tm C L T (genRetrieveorset C n v bv t) Anyhow := by
  unfold genRetrieveorset
  refine tm_then tm_setState fun T1 _ h1 => fun w hw => ?_
  show Punct C L Anyhow T1 ((match (w.buf n).map Buf.cls with
    | some .goal => genSetGoal C n v bv t
    | some .visualLocation => genFindLocation C n v bv t
    | some .visual => genVisual C n v bv t
    | some .motor => do
      genMotorset C n v bv t
      .yield .nothing
    | some .decmem => genRetrieve C n v bv t
    | Option.none => .throw .attribute : GenM Unit) w)
  cases hb : w.buf n with
  | none => exact tm_throw (Q := Anyhow) (A := Unit) w hw
  | some b =>
    cases hc : b.cls <;> simp only [Option.map_some, hc]
    case goal => exact tm_setGoal hL (le_trans ht h1) w hw
    case visualLocation => exact tm_findLocation hL w hw
    case visual => exact tm_visual hL (hw.sight n (hc ▸ buf_cls_mem hb)) w hw
    case motor => exact tm_then tm_motorset (fun _ _ _ => tm_nothing) w hw
    case decmem => exact tm_retrieve hL w hw

/-- Every process of a module. -/
theorem tm_run (hL : 0 ≤ L) {d : Desc} (h : DescBy C L T d) : Tm C L T (d.run C) Anyhow := by
  cases d with
  | retrieveorset n v bv t => exact tm_retrieveorset hL h
  | modifyRequest n v bv t => exact tm_modifyRequest
  | clear n bv t => exact tm_clear hL (by have : round4 t ≤ T := h; linarith)
  | autoSearch n s t => exact tm_autoSearch hL h
  | autoBuffer n s t => exact tm_autoBuffer hL
  | visualContinue n c bv t ts site => exact tm_visualcontinue hL h.1 h.2
  | motorContinue n k t pr => exact tm_motorcontinue

/-! ## Rules -/

theorem dated_queue {m : String} {d : Desc} (h : Dated C L T w) (hd : DescBy C L T d) : Dated C L T (w.queue m d) :=
  dated_new h newBy_refl (fun n i d' hm => by
    rcases List.mem_append.1 hm with hm | hm
    · exact .inl hm
    · cases List.mem_singleton.1 hm; exact .inr hd) rfl

theorem tm_immediate (hL : 0 ≤ L) {k : Key} {v : RVal} {bv : BV} {t : ℚ} (ht : round4 t ≤ T) : Tm C L T (immediate C k v bv t) Anyhow := by
  unfold immediate
  split
  · exact tm_extraTest
  · split
    · exact tm_execute
    · split
      · exact tm_modify
      · split
        · exact tm_overwrite
        · exact tm_clear hL (by linarith)

theorem descBy_queued {k : Key} {v : RVal} {bv : BV} {t : ℚ} (ht : round4 t ≤ T) : DescBy C L T (queuedDesc k v bv t) := by
  unfold queuedDesc
  split
  · exact ht
  · trivial

theorem tm_updateLoop (hL : 0 ≤ L) {t : ℚ} : ∀ {T : ℚ} (l : List (Key × RVal)) (temp : BV), round4 t ≤ T → Tm C L T (updateLoop C t l temp) Anyhow
  | T, [], temp, ht => tm_pure' trivial
  | T, (k, v) :: r, temp, ht => by
    unfold updateLoop
    refine tm_then (tm_act fun w hw => ?_) fun T1 _ h1 => tm_then tm_get fun T2 bv h2 => tm_then tm_setState fun T3 _ h3 => ?_
    · split <;> exact hw
    · split
      · exact tm_then (tm_set fun w hw => dated_queue hw (descBy_queued (by linarith))) fun T4 _ h4 => tm_updateLoop hL r _ (by linarith)
      · exact tm_then (tm_immediate hL (by linarith)) fun T4 _ h4 => tm_updateLoop hL r _ (by linarith)

theorem dated_harvest {t : ℚ} (ht : round4 t ≤ T) : ∀ (l : List String) {w : Mach}, Dated C L T w → Dated C L T (harvestAll t l w)
  | [], _, h => h
  | n :: r, w, h => by
    unfold harvestAll
    refine dated_harvest ht r ?_
    split
    · exact dated_queue h ht
    · exact h

theorem tm_rhs (hL : 0 ≤ L) {m : String} {rule : CRule} {t : ℚ} (ht : round4 t ≤ T) : Tm C L T (genRhs C m rule t) Anyhow := by
  unfold genRhs genUpdate
  refine tm_then tm_lift fun T1 rhs h1 => tm_then (tm_then tm_get fun T2 temp h2 => tm_then tm_lift fun T3 sorted h3 => tm_then (tm_updateLoop hL _ _ (by linarith)) fun T4 left h4 => tm_set fun w hw => ?_) fun T5 _ h5 => tm_set fun w hw => ?_
  · split
    · exact dated_harvest (by linarith) _ hw
    · exact hw
  · split
    · split <;> exact dated_same hw rfl rfl rfl
    · exact dated_same hw rfl rfl rfl

theorem compileIn_mems (C : Cfg) (w : Mach) : (compileIn C w).1.mems = w.mems := by
  unfold compileIn
  split
  · dsimp only
    split <;> rfl
  · rfl

theorem rewardStep_parts (C : Cfg) (m : String) (t : ℚ) (w : Mach) : (rewardStep C m t w).mems = w.mems ∧ (rewardStep C m t w).procs = w.procs ∧ (rewardStep C m t w).bufs = w.bufs := by
  unfold rewardStep
  split
  · split <;> exact ⟨rfl, rfl, rfl⟩
  · exact ⟨rfl, rfl, rfl⟩

theorem dated_compileIn (h : Dated C L T w) : Dated C L T (compileIn C w).1 := by
  obtain ⟨_, h1, h2⟩ := compileIn_rest C w
  exact dated_same h (compileIn_mems C w) h1 h2

theorem tm_fire (hL : 0 ≤ L) {m : String} {rule : CRule} {t : ℚ} (ht : round4 t ≤ T) : Tm C L T (genFire C m rule t) Anyhow := by
  unfold genFire
  refine tm_then (tm_set fun w hw => ?_) fun T1 _ h1 => tm_then (tm_act fun w hw => dated_compileIn hw) fun T2 comp h2 => tm_then (tm_set fun w hw => dated_same hw rfl rfl rfl) fun T3 _ h3 => ?_
  · obtain ⟨g1, g2, g3⟩ := rewardStep_parts C m t w
    exact dated_same hw g1 g2 g3
  · split
    · exact tm_then tm_report fun T4 _ h4 => tm_then (tm_set fun w hw => dated_same hw rfl rfl rfl) fun T5 _ h5 => tm_then tm_report fun T6 _ h6 => tm_rhs hL (by linarith)
    · exact tm_then (tm_set fun w hw => dated_same hw rfl rfl rfl) fun T5 _ h5 => tm_then tm_report fun T6 _ h6 => tm_rhs hL (by linarith)

theorem tm_test (hL : 0 ≤ L) {m : String} {rule : CRule} {t : ℚ} (ht : round4 t ≤ T) : Tm C L T (genTest C m rule t) Anyhow := by
  unfold genTest
  refine tm_then tm_lift fun T1 lhs h1 => tm_then (tm_act fun w hw => hw) fun T2 mt h2 => ?_
  split
  · exact tm_report
  · exact tm_then (tm_set fun w hw => dated_same hw rfl rfl rfl) fun T3 _ h3 => tm_fire hL (by linarith)

theorem tm_selected (hL : 0 ≤ L) {m : String} {rule : CRule} {t : ℚ} : Tm C L T (genSelected C m rule t) Anyhow := by
  unfold genSelected
  exact tm_then (tm_set fun w hw => dated_same hw rfl rfl rfl) fun T1 _ _ => tm_then tm_report fun T2 _ _ => tm_bind tm_event fun T3 _ _ h3 => tm_test hL h3

theorem removeProcedural_mem {x : PItem} : ∀ {l : List PItem}, x ∈ removeProcedural l → x ∈ l
  | [], h => h
  | .procedural :: l, h => .tail _ h
  | .gen n i d :: l, h => by
    rcases List.mem_cons.1 h with rfl | h
    · exact .head _
    · exact .tail _ (removeProcedural_mem h)

/-- One cycle. -/
theorem tm_procedural (hL : 0 ≤ L) {t : ℚ} : Tm C L T (genProcedural C t) Anyhow := by
  unfold genProcedural
  refine tm_then (tm_set fun w hw => ?_) fun T1 _ _ => tm_then tm_report fun T2 _ _ => tm_then (tm_act fun w hw => ?_) fun T3 sel _ => ?_
  · exact dated_new hw newBy_refl (fun n i d hm => by
      rcases List.mem_append.1 hm with hm | hm
      · exact .inl hm
      · cases List.mem_singleton.1 hm) rfl
  · unfold selectIn
    dsimp only
    split
    · exact dated_same hw rfl rfl rfl
    · exact dated_same hw rfl rfl rfl
    · split <;> exact dated_same hw rfl rfl rfl
  · split
    · exact tm_then (tm_set fun w hw => dated_new hw newBy_refl (fun n i d hm => .inl (removeProcedural_mem hm)) rfl) fun _ _ _ => tm_then tm_report fun _ _ _ => tm_procs
    · exact tm_then (tm_selected hL) fun _ _ _ => tm_procs

end Verif
