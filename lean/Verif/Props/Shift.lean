import Verif.Lemmas.Carried
import Verif.Lemmas.ExMachine
import Verif.Spec.Shift
import Verif.Props.Vision
import Verif.Props.Compile
/-! # C41: visual shifts -/
namespace Verif.Props
open Verif Verif.Spec

/-- The whole of C41: a shift that is carried out undisturbed reports its events in order, moves the eye exactly once, and encodes
the object exactly once, at the encoding time; the object is then in the buffer. -/
def C41_full : Prop := ∀ (C : Cfg) (name : String) (v : RVal) (bv : BV) (t : ℚ) (w w' : Mach) (b : Buf) (evs : List Verif.Ev),
  NonNegTimes C → w.buf name = some b → b.cls = .visual → Carried C (Alone name) (genVisualshift C name v bv t w) evs w' →
  ∃ p, Plans C v bv w p ∧ InOrder evs ∧ ExactlyOne EyeMove evs ∧ ExactlyOne Encoding evs ∧
    (∃ e ∈ evs, e.act = .encoded p.chunk ∧ AtTime (t + p.encoding) e) ∧ (w'.buf name).map Buf.data = some [p.chunk]

theorem shiftIn_bufs {C : Cfg} {c : Chunk} {bv : BV} {w w1 : Mach} {r : Except PyErr (Chunk × (ℚ × ℚ × ℚ) × (ℚ × ℚ))}
    (h : shiftIn C c bv w = (w1, r)) : w1.bufs = w.bufs := by
  have : (shiftIn C c bv w).1.bufs = w.bufs := by
    unfold shiftIn
    split
    · rfl
    · split
      · rfl
      · split
        · rfl
        · rfl
        · split
          · rfl
          · dsimp only
            split <;> rfl
  rw [h] at this; exact this

theorem shiftIn_nonneg {C : Cfg} (hn : NonNegTimes C) {c : Chunk} {bv : BV} {w w1 : Mach} {r : Chunk × (ℚ × ℚ × ℚ) × (ℚ × ℚ)}
    (h : shiftIn C c bv w = (w1, .ok r)) : 0 ≤ r.2.1.1 ∧ 0 ≤ r.2.1.2.1 ∧ 0 ≤ r.2.1.2.2 := by
  unfold shiftIn at h
  split at h
  · cases h
  · split at h
    · cases h
    · split at h
      · cases h
      · cases h
      · split at h
        · cases h
        · dsimp only at h
          split at h
          · simp only [Prod.mk.injEq] at h
            obtain ⟨_, h⟩ := h
            generalize hx : C.emma _ _ _ _ = x at h
            cases x with
            | error e => cases h
            | ok y => cases h; exact hn _ _ _ _ _ hx
          · cases h; norm_num

/-- What encoding an object does, seen from the buffer. -/
theorem ends_encode {C : Cfg} {n : String} {c : Chunk} {t x : ℚ} {site : ℚ × ℚ} {w : Mach} {b : Buf} {K : List Verif.Ev → Mach → Desc → Prop}
    {acc : List Verif.Ev} {Q : List Verif.Ev → Mach → Unit → Prop} (hb : w.buf n = some b) (hc : b.cls = .visual)
    (h : ∀ w1, w1.buf n = some { b with data := [c], state := .free, focus := site } →
      Q (acc ++ [⟨round4 (t + x), n, .cleared⟩, ⟨round4 (t + x), n, .encoded c⟩]) w1 ()) :
    (genVisualencode C n c t x site w).ends (Alone n) Q K acc := by
  unfold genVisualencode
  simp only [ends_bindM, ends_set, ends_act, ends_event]
  refine ends_clear (b := { b with state := .busy, focus := site }) (by simp [hb]) ?_
  intro w1 d h1 w2 _ ha w3 hw
  simp only [Bool.false_eq_true, if_false] at h1
  have h2 := onBuf_buf h1 ha
  have hd : (BState.add C.P BufClass.visual.kind ⟨w1.reg, d, b.dm, w1.mems⟩ (some c) (t + x) Option.none).1.data = [c] := by
    unfold Mach.onBuf at ha
    rw [h1] at ha
    simp only [hc, Mach.bst, Prod.mk.injEq] at ha
    have ha := ha.2
    simp only [BState.add, BufClass.kind] at ha ⊢
    generalize BState.clear C.P .visual ⟨w1.reg, d, b.dm, w1.mems⟩ (t + x) Option.none = q at ha
    obtain ⟨st, e | u⟩ := q
    · cases ha
    · rfl
  simp only [hc, Mach.bst, hd] at h2
  have := h w3 (by
    have : w3.buf n = (w2.setState n .free).buf n := hw
    rw [this, buf_setState_self, h2]
    simp [hc])
  simpa using this

/-- The first part of a shift: what has been reported when the continuation is left behind. -/
def shiftHead (n : String) (c : Chunk) (t a p x : ℚ) : List Verif.Ev :=
  if a ≤ p then [⟨round4 t, n, .shiftStarted⟩, ⟨round4 (t + a), n, .cleared⟩, ⟨round4 (t + a), n, .encoded c⟩, ⟨round4 (t + p), n, .shiftPrepared⟩]
  else if a ≤ p + x then
    [⟨round4 t, n, .shiftStarted⟩, ⟨round4 (t + p), n, .shiftPrepared⟩, ⟨round4 (t + a), n, .cleared⟩, ⟨round4 (t + a), n, .encoded c⟩]
  else [⟨round4 t, n, .shiftStarted⟩, ⟨round4 (t + p), n, .shiftPrepared⟩]

/-- What is left behind: the continuation and the buffer. -/
structure Left (C : Cfg) (n : String) (v : RVal) (bv : BV) (t : ℚ) (w : Mach) (b : Buf) (acc : List Verif.Ev) (w1 : Mach) (d : Desc) : Prop where
  plan : ∃ q, Plans C v bv w q ∧ 0 ≤ q.encoding ∧ 0 ≤ q.preparation ∧ 0 ≤ q.execution ∧
    d = .visualContinue n q.chunk bv (t + q.preparation) (q.encoding, q.preparation, q.execution) q.site ∧
    acc = shiftHead n q.chunk t q.encoding q.preparation q.execution ∧
    ∃ b1, w1.buf n = some b1 ∧ b1.lastMvt = b.lastMvt ∧ b1.cls = .visual ∧ (q.encoding ≤ q.preparation + q.execution → b1.data = [q.chunk])

theorem ends_shift {C : Cfg} {n : String} {v : RVal} {bv : BV} {t : ℚ} {w : Mach} {b : Buf} (hn : NonNegTimes C)
    (hb : w.buf n = some b) (hc : b.cls = .visual) :
    (genVisualshift C n v bv t w).ends (Alone n) (fun _ _ _ => False) (Left C n v bv t w b) [] := by
  unfold genVisualshift
  simp only [ends_bindM, ends_set, ends_act, ends_event, ends_lift]
  intro c hv w1 s hs w2 hw
  have hv : v = .chunk c := by
    cases v <;> simp only [RVal.asChunk] at hv <;> cases hv
    rfl
  have hw : w2.buf n = _ := hw
  obtain ⟨new, ⟨a, p, x⟩, site⟩ := s
  obtain ⟨ha, hp, hx⟩ := shiftIn_nonneg hn hs
  have hplan : Plans C v bv w ⟨new, a, p, x, site⟩ := ⟨c, hv, by rw [hs]⟩
  have h1 : w1.buf n = some b := by rw [← hb]; unfold Mach.buf; rw [shiftIn_bufs hs]
  rw [buf_upd_self, h1] at hw
  simp only at ha hp hx hw ⊢
  have hw : w2.buf n = some { b with preparation := .busy, processor := .busy, state := .busy } := hw
  split
  · next hap =>
    simp only [ends_bindM, ends_event]
    refine ends_encode hw hc ?_
    intro w3 h3 w4 hw4
    have hw4 : w4.buf n = w3.buf n := hw4
    rw [if_neg (by rintro ⟨h, _⟩; exact absurd h (not_lt.mpr hap))]
    simp only [ends_cont]
    refine ⟨⟨new, a, p, x, site⟩, hplan, ha, hp, hx, rfl, ?_, _, hw4.trans h3, rfl, hc, fun _ => rfl⟩
    simp [shiftHead, hap]
  · next hap =>
    simp only [ends_bindM, ends_event]
    intro w4 hw4
    have hw4 : w4.buf n = w2.buf n := hw4
    rw [hw] at hw4
    split
    · next hr =>
      simp only [ends_bindM, ends_cont]
      refine ends_encode hw4 hc ?_
      intro w3 h3
      refine ⟨⟨new, a, p, x, site⟩, hplan, ha, hp, hx, rfl, ?_, _, h3, rfl, hc, fun _ => rfl⟩
      have : t + p - p = t := by ring
      simp [shiftHead, hap, hr.2, this]
    · next hr =>
      have hax : ¬ a ≤ p + x := fun h => hr ⟨not_le.mp hap, h⟩
      simp only [ends_cont]
      refine ⟨⟨new, a, p, x, site⟩, hplan, ha, hp, hx, rfl, ?_, _, hw4, rfl, hc, fun h => absurd h hax⟩
      simp [shiftHead, hap, hax]

/-- The second part of a shift. -/
theorem ends_continue {C : Cfg} {n : String} {c : Chunk} {bv : BV} {t a p x : ℚ} {site : ℚ × ℚ} {w : Mach} {b : Buf} (hn : NonNegTimes C)
    (hb : w.buf n = some b) (hc : b.cls = .visual) :
    (genVisualcontinue C n c bv t (a, p, x) site w).ends (Alone n) (fun evs w' _ =>
      (¬ p + x < a ∧ evs = [⟨round4 (max t b.lastMvt + x), n, .unknown⟩,
        ⟨round4 (max t b.lastMvt + x), n, .shiftComplete ((truncQ site.1 : ℚ), (truncQ site.2 : ℚ))⟩] ∧ (w'.buf n).map Buf.data = some b.data) ∨
      (p + x < a ∧ ∃ w1 q, Plans C (.chunk c) bv w1 q ∧ 0 ≤ q.encoding ∧ evs = [⟨round4 (max t b.lastMvt + x), n, .unknown⟩,
        ⟨round4 (max t b.lastMvt + x), n, .shiftComplete ((truncQ site.1 : ℚ), (truncQ site.2 : ℚ))⟩,
        ⟨round4 (max t b.lastMvt + x + (1 - (p + x) / a) * q.encoding), n, .cleared⟩,
        ⟨round4 (max t b.lastMvt + x + (1 - (p + x) / a) * q.encoding), n, .encoded c⟩] ∧ (w'.buf n).map Buf.data = some [c])) (fun _ _ _ => False) [] := by
  unfold genVisualcontinue
  simp only [ends_bindM, ends_set, ends_event, ends_get]
  intro w1 h1 w2 h2
  have h1 : w1.buf n = _ := h1
  have h2 : w2.buf n = _ := h2
  have hm : (if t < (((w.upd n fun b => { b with preparation := .free, execution := .busy }).buf n).map Buf.lastMvt).getD 0
      then (((w.upd n fun b => { b with preparation := .free, execution := .busy }).buf n).map Buf.lastMvt).getD 0 else t) = max t b.lastMvt := by
    simp only [buf_upd_self, hb, Option.map_some, Option.getD_some]
    rw [max_def]
    split <;> split <;> first | rfl | linarith
  rw [hm] at h1
  generalize max t b.lastMvt = T at *
  rw [hm]
  rw [buf_upd_self, buf_upd_self, hb] at h1
  rw [buf_upd_self] at h2
  change w2.buf n = Option.map _ (w1.buf n) at h2
  rw [h1] at h2
  have hf : ((({ w1 with env := w1.env.map (fun e => { e with focus := ((truncQ site.1 : ℚ), (truncQ site.2 : ℚ)) }) } : Mach).upd n
      (fun b => { b with focus := ((truncQ site.1 : ℚ), (truncQ site.2 : ℚ)) })).buf n).map Buf.focus = some ((truncQ site.1 : ℚ), (truncQ site.2 : ℚ)) := by
    rw [buf_upd_self]
    change Option.map _ (Option.map _ (w1.buf n)) = _
    rw [h1]; rfl
  rw [hf]
  split
  · next hlt =>
    simp only [ends_bindM, ends_act]
    intro w3 s hs
    split
    · trivial
    · have hnn := shiftIn_nonneg hn hs
      have h3 : w3.buf n = w2.buf n := by unfold Mach.buf; rw [shiftIn_bufs hs]
      rw [h2] at h3
      simp only [ends_bindM, ends_set]
      refine ends_encode h3 hc ?_
      intro w4 h4
      right
      refine ⟨hlt, w2, ⟨s.1, s.2.1.1, s.2.1.2.1, s.2.1.2.2, s.2.2⟩, ⟨c, rfl, by rw [hs]⟩, hnn.1, rfl, ?_⟩
      rw [buf_upd_self, h4]; rfl
  · next hlt =>
    simp only [ends_set]
    left
    refine ⟨hlt, rfl, ?_⟩
    rw [buf_upd_self, h2]; rfl

/-- C41, with the encoding time as the code has it: if encoding is not over when the eye lands, it starts again, and the share of the
first encoding time that was left is applied to a newly computed time. -/
theorem C41_partial : ∀ (C : Cfg) (name : String) (v : RVal) (bv : BV) (t : ℚ) (w w' : Mach) (b : Buf) (evs : List Verif.Ev),
    NonNegTimes C → w.buf name = some b → b.cls = .visual → Carried C (Alone name) (genVisualshift C name v bv t w) evs w' →
    ∃ p, Plans C v bv w p ∧ InOrder evs ∧ ExactlyOne EyeMove evs ∧ ExactlyOne Encoding evs ∧
      (p.encoding ≤ p.preparation + p.execution → ∃ e ∈ evs, e.act = .encoded p.chunk ∧ AtTime (t + p.encoding) e) ∧
      (p.preparation + p.execution < p.encoding → ∃ w1 p', Plans C (.chunk p.chunk) bv w1 p' ∧ ∃ e ∈ evs, e.act = .encoded p.chunk ∧
        AtTime (max (t + p.preparation) b.lastMvt + p.execution + (1 - (p.preparation + p.execution) / p.encoding) * p'.encoding) e) ∧
      (∃ e ∈ evs, e.act = .shiftComplete ((truncQ p.site.1 : ℚ), (truncQ p.site.2 : ℚ)) ∧
        AtTime (max (t + p.preparation) b.lastMvt + p.execution) e) ∧
      (w'.buf name).map Buf.data = some [p.chunk] := by
  intro C name v bv t w w' b evs hn hb hc hcar
  rcases carried_ends hcar (ends_shift hn hb hc) with h | ⟨evs1, evs2, w1, w2, d, rfl, ⟨q, hq, ha, hp, hx, rfl, he1, b1, hb1, hl, hc1, hd1⟩, hw, hcar2⟩
  · exact h.elim
  rw [List.nil_append] at he1
  subst he1
  have hw : w2.buf name = w1.buf name := hw
  rw [hb1] at hw
  rcases carried_ends hcar2 (ends_continue hn hw hc1) with h | ⟨_, _, _, _, _, _, h, _⟩
  swap
  · exact h.elim
  simp only [List.nil_append, hl] at h
  obtain ⟨c, a, p, x, site⟩ := q
  simp only at ha hp hx hd1 h ⊢
  refine ⟨⟨c, a, p, x, site⟩, hq, ?_⟩
  simp only
  have m1 : t ≤ t + p := by linarith
  have m2 : t + p ≤ max (t + p) b.lastMvt := le_max_left _ _
  generalize max (t + p) b.lastMvt = T at *
  have m3 : T ≤ T + x := by linarith
  have r0 := round4_mono m1
  have r1 := round4_mono (m2.trans m3)
  have r2 := r0.trans r1
  rcases h with ⟨hlt, rfl, hd⟩ | ⟨hlt, wx, q', hq', ha', rfl, hd⟩
  · have hle : a ≤ p + x := not_lt.mp hlt
    rw [hd1 hle] at hd
    have r3 := round4_mono (show t ≤ t + a by linarith)
    have r4 := round4_mono (show t + a ≤ T + x by linarith)
    have e1 : ∀ q, AtTime q ⟨round4 q, name, .encoded c⟩ := fun q => round4_isRounded q
    unfold shiftHead
    by_cases hap : a ≤ p
    · have r5 := round4_mono (show t + a ≤ t + p by linarith)
      rw [if_pos hap]
      refine ⟨by simp [InOrder, *], ?_, ?_, fun _ => ⟨⟨round4 (t + a), name, .encoded c⟩, by simp, rfl, round4_isRounded _⟩,
        fun h => absurd hle (not_le.mpr h), ⟨⟨round4 (T + x), name, _⟩, by simp, rfl, round4_isRounded _⟩, hd⟩
      · exact ⟨[_, _, _, _, _], _, [], rfl, ⟨_, rfl⟩, by simp [EyeMove]⟩
      · exact ⟨[_, _], _, [_, _, _], rfl, ⟨_, rfl⟩, by simp [Encoding]⟩
    · have r5 := round4_mono (show t + p ≤ t + a by linarith)
      rw [if_neg hap, if_pos hle]
      refine ⟨by simp [InOrder, *], ?_, ?_, fun _ => ⟨⟨round4 (t + a), name, .encoded c⟩, by simp, rfl, round4_isRounded _⟩,
        fun h => absurd hle (not_le.mpr h), ⟨⟨round4 (T + x), name, _⟩, by simp, rfl, round4_isRounded _⟩, hd⟩
      · exact ⟨[_, _, _, _, _], _, [], rfl, ⟨_, rfl⟩, by simp [EyeMove]⟩
      · exact ⟨[_, _, _], _, [_, _], rfl, ⟨_, rfl⟩, by simp [Encoding]⟩
  · have hnle : ¬ a ≤ p + x := not_le.mpr hlt
    have hap : ¬ a ≤ p := fun h => hnle (by linarith)
    have hpos : 0 < a := by linarith
    have hs : 0 ≤ (1 - (p + x) / a) * q'.encoding := by
      refine mul_nonneg ?_ ha'
      have : (p + x) / a ≤ 1 := (div_le_one hpos).mpr hlt.le
      linarith
    have r3 := round4_mono (show T + x ≤ T + x + (1 - (p + x) / a) * q'.encoding by linarith)
    have r4 := r1.trans r3
    have r5 := r2.trans r3
    unfold shiftHead
    rw [if_neg hap, if_neg hnle]
    refine ⟨by simp [InOrder, *], ?_, ?_, fun h => absurd h hnle, fun _ => ⟨wx, q', hq', ⟨round4 (T + x + (1 - (p + x) / a) * q'.encoding), name, .encoded c⟩,
      by simp, rfl, round4_isRounded _⟩, ⟨⟨round4 (T + x), name, _⟩, by simp, rfl, round4_isRounded _⟩, hd⟩
    · exact ⟨[_, _, _], _, [_, _], rfl, ⟨_, rfl⟩, by simp [EyeMove]⟩
    · exact ⟨[_, _, _, _, _], _, [], rfl, ⟨_, rfl⟩, by simp [Encoding]⟩

/-! ## An example -/

theorem check_literal {P : Py} {bv : BV} {ni : Bool} {v : Val} (hr : isRelation P.H v = false) (ht : v.truthy = true) :
    checkBoundVars P bv ni (.vv ⟨v, Option.none, [], []⟩) = .ok ⟨v, Option.none, P.vord [], []⟩ := by
  simp [checkBoundVars, splitting, cbvValues, ht, CbvState.init, cbvCombine_first, cbvCombine_same, cbvVars, optStrTruthy, cbvNegvalues, cbvNegvars,
    cbvFinish, hr, Except.bind]

/-- The registry. -/
def exShiftReg : Reg := [("_visuallocation", ["color", "screen_x", "screen_y", "value"]), ("_visual", ["cmd", "color", "screen_pos", "value"])]

/-- A place on the screen. -/
def exSpot : Val := .chunk "_visuallocation" [("color", .empty), ("screen_x", .vv (exLit "0")), ("screen_y", .vv (exLit "0")), ("value", .empty)]

/-- A request to look there, and what is seen there. -/
def exLook : Chunk := ⟨"_visual", [("cmd", .vv (exLit "move_attention")), ("color", .empty), ("screen_pos", .vv ⟨exSpot, Option.none, [], []⟩),
  ("value", .vv (exLit "a"))]⟩

/-- A model that looks at a screen. -/
def exLooking : Mach := { exMach exShiftReg [("visual", exBuf .visual)] with
                          env := some ⟨0, (0, 0), [], [], [], some [("s", exStim "a" 0 0)], Option.none⟩ }

/-- Numbers are read; with EMMA encoding takes one second the first time, two seconds the second time, and the rest no time. -/
noncomputable def exSees (P : Py) (emma : Bool) : Cfg :=
  { exCfg P with emmaOn := emma, pyFloat := fun _ => some 0, emma := fun k _ _ _ => .ok (((k : ℚ) + 1, 0, 0), (0, 0)) }

theorem truncQ_zero : truncQ 0 = 0 := by simp [truncQ]

theorem exSpot_plain : PlainVal exSpot := by simp [exSpot, PlainVal, PlainSlots, PlainSlot, exLit]

/-- The slots of the request. -/
def exLooks : List (String × VarVal) := [("cmd", exLit "move_attention"), ("screen_pos", ⟨exSpot, Option.none, [], []⟩), ("value", exLit "a")]

theorem exLook_resolves {H : PyHash} (cf : H.CollisionFree) : resolveAll (exPy H) BV.init true (removeUnused H exLook) = .ok exLooks := by
  have h0 : pyEq H exSpot .none = false := by
    rw [← Bool.not_eq_true, pyEq_iff cf]
    · simp [exSpot, SameVal]
    · exact exSpot_plain
    · exact plainVal_none
  have h1 : removeUnused H exLook = exLooks := by
    have e : ∀ s, pyEq H (.str s) .none = false := fun s => rfl
    simp [removeUnused, exLook, h0, e, exLit, exLooks]
  rw [h1]
  have h2 := fun s hs h1 h2 => check_literal (P := exPy H) (bv := BV.init) (ni := true) (v := .str s) (isRelation_false cf (plainVal_str _) h1 h2) hs
  have h3 := check_literal (P := exPy H) (bv := BV.init) (ni := true) (v := exSpot) (isRelation_false cf exSpot_plain (by simp [exSpot]) (by simp [exSpot])) rfl
  simp only [exLooks, resolveAll, exLit, h2 "move_attention" rfl (by simp) (by simp), h2 "a" rfl (by simp) (by simp), h3]
  rfl

theorem exShift {H : PyHash} (cf : H.CollisionFree) (emma : Bool) (w : Mach) (hr : w.reg = exShiftReg)
    (he : w.env = exLooking.env) : shiftIn (exSees (exPy H) emma) exLook BV.init w =
    (if emma then { w with tick := w.tick + 1 } else w,
      .ok (exLook, (if emma then ((w.tick : ℚ) + 1, 0, 0) else ((85 : ℚ) / 1000, 0, (85 : ℚ) / 1000)), (0, 0))) := by
  have hl : locChunk (exPy H) exShiftReg (exStim "a" 0 0) true = (exShiftReg, .ok ⟨"_visuallocation",
      [("color", .empty), ("screen_x", .vv (exLit "0")), ("screen_y", .vv (exLit "0")), ("value", .empty)]⟩) := by
    simp only [locChunk, exStim, truncQ_zero]
    rfl
  have ht : shiftTarget (exSees (exPy H) emma) exLooks [("s", exStim "a" 0 0)] Option.none = .ok (some (exStim "a" 0 0)) := by
    have hx : ∀ n, n = "screen_x" ∨ n = "screen_y" → coordinate (exSees (exPy H) emma) exSpot n = .ok 0 := by
      rintro n (rfl | rfl) <;> rfl
    unfold shiftTarget
    rw [show (exStim "a" 0 0).pos = some (0, 0) from rfl, show alook "screen_pos" exLooks = some ⟨exSpot, Option.none, [], []⟩ from rfl]
    simp only [hx _ (.inl rfl), hx _ (.inr rfl), if_true]
    rfl
  have hv : visChunk (exPy H) exShiftReg (exStim "a" 0 0) (alook "cmd" exLooks) = (exShiftReg, .ok exLook) := by
    unfold visChunk
    rw [hl]
    rfl
  unfold shiftIn
  rw [show (exSees (exPy H) emma).P = exPy H from rfl, show (exPy H).H = H from rfl, exLook_resolves cf, he,
    show exLooking.env.bind Env.stimulus = some [("s", exStim "a" 0 0)] from rfl]
  dsimp only
  rw [ht]
  dsimp only
  rw [hr, hv]
  dsimp only
  rw [show (exStim "a" 0 0).pos = some (0, 0) from rfl]
  simp only [Option.getD_some, truncQ_zero, Int.cast_zero]
  rw [← he]
  cases w
  cases hr
  rw [show (exSees (exPy H) emma).emmaOn = emma from rfl]
  cases emma
  · simp only [Bool.false_eq_true, if_false]
    rfl
  · simp only [if_true]
    rfl

theorem exLook_carried {H : PyHash} (cf : H.CollisionFree) :
    Finishes (exSees (exPy H) false) (Alone "visual") (fun _ => True)
      (genVisualshift (exSees (exPy H) false) "visual" (.chunk exLook) BV.init 0 exLooking) := by
  unfold genVisualshift
  simp only [genM_bind_apply, RVal.asChunk, genM_lift_ok, out_bind_ret]
  rw [genM_act_ok (exShift cf false exLooking rfl rfl)]
  simp only [Bool.false_eq_true, if_false, out_bind_ret]
  rw [if_neg (by norm_num), if_pos (by norm_num)]
  refine finishes_ev rfl ⟨⟩ (finishes_ev rfl ⟨⟩ (finishes_ev rfl ⟨⟩ (finishes_ev rfl ⟨⟩ (finishes_cont rfl ?_))))
  refine finishes_ev rfl ⟨⟩ (finishes_ev rfl ⟨⟩ ?_)
  dsimp only [out_bind_ret]
  rw [if_neg (by norm_num)]
  exact finishes_ret

theorem exLook_late {H : PyHash} (cf : H.CollisionFree) :
    Finishes (exSees (exPy H) true) (Alone "visual") (fun e => ∀ c, e.act = .encoded c → e.time = 2)
      (genVisualshift (exSees (exPy H) true) "visual" (.chunk exLook) BV.init 0 exLooking) := by
  unfold genVisualshift
  simp only [genM_bind_apply, RVal.asChunk, genM_lift_ok, out_bind_ret]
  rw [genM_act_ok (exShift cf true exLooking rfl rfl)]
  simp only [if_true, out_bind_ret]
  rw [if_neg (by norm_num [exLooking, exMach]), if_neg (by norm_num [exLooking, exMach])]
  refine finishes_ev rfl nofun (finishes_ev rfl nofun (finishes_cont rfl ?_))
  refine finishes_ev rfl nofun (finishes_ev rfl nofun ?_)
  dsimp only [out_bind_ret]
  rw [if_pos (by norm_num [exLooking, exMach]), genM_bind_apply, genM_act_ok (exShift cf true _ rfl (by
    simp [truncQ_zero, exLooking, upd_env]))]
  simp only [out_bind_ret]
  rw [if_neg (by norm_num [exLooking, exMach])]
  refine finishes_ev rfl nofun (finishes_ev rfl (fun c _ => ?_) finishes_ret)
  refine Eq.trans (congrArg round4 (a₂ := ((20000 : ℤ) : ℚ) / 10000) ?_) ((round4_of_int 20000).trans (by norm_num))
  change (if (0 : ℚ) + 0 < 0 then (0 : ℚ) else 0 + 0) + 0 + (1 - (0 + 0) / (((0 : ℕ) : ℚ) + 1)) * (((1 : ℕ) : ℚ) + 1) = _
  norm_num

theorem exSees_nonneg (P : Py) (emma : Bool) : NonNegTimes (exSees P emma) := by
  intro k f s d r h
  cases h
  exact ⟨by positivity, le_refl _, le_refl _⟩

/-- C41 is false: with EMMA, if encoding takes longer than preparation and execution, it ends at a different time. -/
theorem C41_refuted : ¬ C41_full := by
  obtain ⟨H, cf⟩ := exists_collisionFree
  intro h
  obtain ⟨evs, w', hc, hlate⟩ := exLook_late cf
  obtain ⟨p, ⟨c, hv, hp⟩, _, _, _, ⟨e, he, ha, ht⟩, _⟩ := h _ _ _ _ _ _ _ _ _ (exSees_nonneg _ _) rfl rfl hc
  cases hv
  rw [exShift cf true exLooking rfl rfl] at hp
  simp only [if_true, Except.ok.injEq, Prod.mk.injEq] at hp
  obtain ⟨e1, ⟨e2, e3, e4⟩, e5⟩ := hp
  have h1 := hlate e he _ ha
  have h2 := isRounded_unique ht
  have h3 := round4_of_int 10000
  rw [h1, ← e2] at h2
  norm_num [exLooking, exMach] at h2 h3
  rw [h3] at h2
  norm_num at h2

/-- The hypotheses of `C41_partial` are met. -/
example (H : PyHash) (cf : H.CollisionFree) : ∃ C name v bv t w w' b evs, NonNegTimes C ∧ w.buf name = some b ∧ b.cls = .visual ∧
    Carried C (Alone name) (genVisualshift C name v bv t w) evs w' := by
  obtain ⟨evs, w', hc, _⟩ := exLook_carried cf
  exact ⟨_, _, _, _, _, _, _, _, _, exSees_nonneg _ _, rfl, rfl, hc⟩

end Verif.Props
