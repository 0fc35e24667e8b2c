import Verif.Lemmas.Machine
import Verif.Lemmas.Rounding
import Verif.Lemmas.ExMachine
import Verif.Props.Motor
import Verif.Spec.Press
import Mathlib.Tactic.NormNum
import Mathlib.Tactic.Linarith
/-! # Properties C34 and C35: key presses -/
namespace Verif.Props
open Verif Verif.Spec

/-! ## C34 -/

/-- A request to press a key of the keyboard is accepted. -/
theorem press_created {P : Py} {reg : Reg} {other : Chunk} {bv : BV} (h : ManualRequest P reg other bv) (upper : String → String) {k : String}
    (ha : AsksPress bv other k) (hk : k ≠ "None") (ho : OnKeyboard (upper k)) :
    motorCreate P upper reg other bv = (reg, .ok (PressChunk (upper k))) := by
  rcases C36_partial h upper _ ha.cmd (by simp) (by simp) k ha.key hk (keyboard_plain ho) ha.only with ⟨_, _, he⟩ | ⟨hn, _⟩
  · exact he
  · exact absurd ⟨k, ha, ho⟩ hn

/-- What the request does. -/
theorem motor_out (C : Cfg) (name : String) (c : Chunk) (bv : BV) (t : ℚ) (w : Mach) (b : Buf) (hb : w.buf name = some b) (hcls : b.cls = .motor)
    (key : String) (hm : motorCreate C.P C.upper w.reg c bv = (w.reg, .ok (PressChunk key))) :
    ∃ w1 : Mach, w1.buf name = some { b with state := .busy, preparation := .busy, processor := .busy } ∧
      (Desc.retrieveorset name (.chunk c) bv t).run C w =
        .yield w1 (.ev ⟨round4 t, name, .command (PressChunk key)⟩) fun w2 =>
        .yield w2 (.ev ⟨round4 (t + prepTime w.motorPrepared b.lastKey.1 key), name, .prepared⟩) fun w3 =>
        .yield w3 (.cont (.motorContinue name key (t + prepTime w.motorPrepared b.lastKey.1 key) (timePresses key))) fun w4 =>
        .yield w4 .nothing fun w5 => .ret w5 () := by
  have hb1 : (w.setState name .busy).buf name = some { b with state := .busy } := by simp [hb]
  have hmi : motorCreateIn C c bv (w.setState name .busy) = (w.setState name .busy, .ok (PressChunk key, key)) := by
    unfold motorCreateIn
    have : (w.setState name .busy).reg = w.reg := upd_reg _ _ _
    rw [this, hm]
    have h2 : slotValue (PressChunk key) "key" = .ok (.str key) := rfl
    simp only [h2]
    rw [← this]
  have hl : (w.setState name .busy).lastKeyOf name = b.lastKey.1 := by simp [Mach.lastKeyOf, hb1]
  have hp : (w.setState name .busy).motorPrepared = w.motorPrepared := upd_motorPrepared _ _ _
  simp only [Desc.run, genRetrieveorset, genM_bind_apply, genM_set_apply, out_bind_ret, genM_get_apply, hb1, Option.map_some, hcls,
    genMotorset, RVal.asChunk, genM_lift_ok, genM_act_ok hmi, genM_event_apply, out_bind_yield, genM_yield_apply, hl, hp]
  refine ⟨_, ?_, rfl⟩
  rw [buf_upd_self]
  split
  · have : ({ w.setState name .busy with motorPrepared := false } : Mach).buf name = (w.setState name .busy).buf name := rfl
    rw [this, hb1]; simp [hcls]
  · rw [hb1]; simp [hcls]

/-- What carrying out the movement does. -/
theorem continue_out (C : Cfg) (name key : String) (t : ℚ) (pr : ℚ × ℚ × ℚ × ℚ) (w : Mach) (b : Buf) (hb : w.buf name = some b) :
    (Desc.motorContinue name key t pr).run C w =
      .yield (w.upd name (fun x => { x with
            preparation := .free, execution := .busy, lastKey := (some key, (if b.lastKey.2 ≠ 0 then b.lastKey.2 else t) + pr.2.1 + pr.2.2.1 + pr.2.2.2) }))
        (.ev ⟨round4 ((if b.lastKey.2 ≠ 0 then b.lastKey.2 else t) + pr.2.1), name, .initiated⟩) fun w1 =>
      .yield (w1.upd name (fun b => { b with processor := .free }))
        (.ev ⟨round4 ((if b.lastKey.2 ≠ 0 then b.lastKey.2 else t) + pr.2.1 + pr.2.2.1), name, .unknown⟩) fun w2 =>
      .yield { w2 with interaction := addStr w2.interaction key }
        (.ev ⟨round4 ((if b.lastKey.2 ≠ 0 then b.lastKey.2 else t) + pr.2.1 + pr.2.2.1), name, .pressed key⟩) fun w3 =>
      .yield w3 (.ev ⟨round4 ((if b.lastKey.2 ≠ 0 then b.lastKey.2 else t) + pr.2.1 + pr.2.2.1 + pr.2.2.2), name, .finished⟩) fun w4 =>
      .ret (w4.upd name (fun b => { b with state := .free, execution := .free, lastKey := (b.lastKey.1, 0) })) () := by
  have : ((w.buf name).map (fun b => b.lastKey.2)).getD 0 = b.lastKey.2 := by rw [hb]; rfl
  simp only [Desc.run, genMotorcontinue, genM_bind_apply, genM_get_apply, out_bind_ret, this, genM_set_apply, genM_event_apply, out_bind_yield]

/-- A request to press a key of the keyboard, to a motor buffer at rest whose last key was `last`. -/
structure PressRequest (C : Cfg) (w : Mach) (name : String) (b : Buf) (c : Chunk) (bv : BV) (k : String) : Prop where
  buf : w.buf name = some b
  motor : b.cls = .motor
  rest : b.lastKey.2 = 0
  request : ManualRequest C.P w.reg c bv
  asks : AsksPress bv c k
  real : k ≠ "None"
  key : OnKeyboard (C.upper k)

/-- C34 in full: while nobody else uses the motor buffer, a key press takes the documented times. -/
def C34_full : Prop := ∀ (C : Cfg) (w w' : Mach) (name : String) (b : Buf) (c : Chunk) (bv : BV) (k : String) (t : ℚ) (evs : List Verif.Ev),
  PressRequest C w name b c bv k → w.motorPrepared = false →
  Carried C (Alone name) ((Desc.retrieveorset name (.chunk c) bv t).run C w) evs w' →
  ∃ p, DocPrep b.lastKey.1 (C.upper k) p ∧ 0 ≤ p ∧ PressEvents name t p (C.upper k) evs

/-- The preparation the code arrives at. -/
def CodePrep (prepared : Bool) (last : Option String) (key : String) (p : ℚ) : Prop :=
  ∃ s, StyleOf key s ∧
    ((prepared = true ∨ last = some key) → p = 0) ∧
    (prepared = false → last = Option.none → p = (StyleTimes s).1) ∧
    (prepared = false → ∀ l, last = some l → l ≠ key → p = (StyleTimes s).1 - 1 / 10)

theorem style_exists (k : String) : ∃ s, StyleOf k s ∧ timePresses k = StyleTimes s := by
  by_cases h1 : k = "5" ∨ k = "6"
  · refine ⟨.far, .inr (.inl ⟨rfl, h1⟩), ?_⟩
    rcases h1 with rfl | rfl <;> norm_num [timePresses, slowestKeys, StyleTimes]
  · have h5 : slowestKeys.contains k = false := by
      rw [Bool.eq_false_iff]; intro h; apply h1; simpa [slowestKeys] using h
    by_cases h2 : k ∈ pressingKeys
    · refine ⟨.home, .inl ⟨rfl, h2⟩, ?_⟩
      have : pressingKeys.contains k = true := by simpa using h2
      unfold timePresses; rw [h5, this]; norm_num [StyleTimes]
    · refine ⟨.other, .inr (.inr ⟨rfl, ?_⟩), ?_⟩
      · intro h
        simp only [pressingKeys, List.mem_cons, List.not_mem_nil, or_false] at h h2
        tauto
      · have : pressingKeys.contains k = false := by
          rw [Bool.eq_false_iff]; intro h; exact h2 (by simpa using h)
        unfold timePresses; rw [h5, this]; norm_num [StyleTimes]

theorem style_unique {k : String} {s s' : KeyStyle} (h : StyleOf k s) (h' : StyleOf k s') : s = s' := by
  rcases h with ⟨rfl, h⟩ | ⟨rfl, h⟩ | ⟨rfl, h⟩ <;> rcases h' with ⟨rfl, h'⟩ | ⟨rfl, h'⟩ | ⟨rfl, h'⟩ <;>
    first
    | rfl
    | skip
  all_goals try simp only [List.mem_cons, List.not_mem_nil, or_false, not_or] at h
  all_goals try simp only [List.mem_cons, List.not_mem_nil, or_false, not_or] at h'
  all_goals first
    | (exfalso; tauto)
    | (exfalso; rcases h' with rfl | rfl <;> simp at h)
    | (exfalso; rcases h with rfl | rfl <;> simp at h')

theorem code_prep (prepared : Bool) (last : Option String) (key : String) : CodePrep prepared last key (prepTime prepared last key) := by
  obtain ⟨s, hs, ht⟩ := style_exists key
  refine ⟨s, hs, ?_, ?_, ?_⟩
  · rintro (h | h) <;> simp [prepTime, h]
  · rintro rfl rfl; simp [prepTime, ht]
  · rintro rfl l rfl hl; simp [prepTime, hl, ht]; norm_num

theorem prep_nonneg {prepared : Bool} {last : Option String} {key : String} {p : ℚ} (h : CodePrep prepared last key p) : 0 ≤ p := by
  obtain ⟨s, _, h1, h2, h3⟩ := h
  cases prepared with
  | true => rw [h1 (.inl rfl)]
  | false =>
    cases last with
    | none => rw [h2 rfl rfl]; cases s <;> norm_num [StyleTimes]
    | some l =>
      by_cases hl : l = key
      · rw [h1 (.inr (by rw [hl]))]
      · rw [h3 rfl l rfl hl]; cases s <;> norm_num [StyleTimes]

/-- C34, as far as it holds: the press is carried out, with the documented events in the documented order and at the documented
distances, and the preparation is never negative. The preparation is 0 for a repeated key (and for the first key if the model
parameter `motor_prepared` is set), the documented time if no key was pressed before and if the last key was of the same hand and
style. Missing: for all other keys the code also subtracts 100 ms. -/
theorem C34_partial {C : Cfg} {w : Mach} {name : String} {b : Buf} {c : Chunk} {bv : BV} {k : String} (t : ℚ)
    (h : PressRequest C w name b c bv k) :
    (∃ evs w', Carried C (Alone name) ((Desc.retrieveorset name (.chunk c) bv t).run C w) evs w') ∧
    ∀ evs w', Carried C (Alone name) ((Desc.retrieveorset name (.chunk c) bv t).run C w) evs w' →
      (∃ p, 0 ≤ p ∧ CodePrep w.motorPrepared b.lastKey.1 (C.upper k) p ∧ PressEvents name t p (C.upper k) evs ∧
        (w.motorPrepared = false →
          (∀ l, b.lastKey.1 = some l → l = C.upper k ∨ (SameHand l (C.upper k) ∧ ∃ s, StyleOf l s ∧ StyleOf (C.upper k) s)) →
          DocPrep b.lastKey.1 (C.upper k) p)) ∧
      ∃ b', w'.buf name = some b' ∧ b'.lastKey = (some (C.upper k), 0) ∧ b'.state = .free ∧ b'.preparation = .free ∧
        b'.processor = .free ∧ b'.execution = .free := by
  obtain ⟨w1, hw1, ho⟩ := motor_out C name c bv t w b h.buf h.motor (C.upper k) (press_created h.request C.upper h.asks h.real h.key)
  have hcont := fun (w2 : Mach) (hw2 : w2.buf name = w1.buf name) => continue_out C name (C.upper k)
    (t + prepTime w.motorPrepared b.lastKey.1 (C.upper k)) (timePresses (C.upper k)) w2 _ (hw2.trans hw1)
  simp only [h.rest, ne_eq, not_true_eq_false, if_false] at hcont
  constructor
  · rw [ho]
    exact ⟨_, _, .ev (w1 := w1) rfl (.ev (w1 := w1) rfl (.cont (w1 := w1) rfl (by
      rw [hcont w1 rfl]; exact .ev rfl (.ev rfl (.ev rfl (.ev rfl .ret)))))) ⟩
  · intro evs w' hc
    rw [ho] at hc
    cases hc with | ev h1 hc => cases hc with | ev h2 hc => cases hc with | cont h3 hc =>
    rw [hcont _ (h3.trans (h2.trans h1))] at hc
    cases hc with | ev h4 hc => cases hc with | ev h5 hc => cases hc with | ev h6 hc => cases hc with | ev h7 hc =>
    cases hc
    obtain ⟨s, hs, ht⟩ := style_exists (C.upper k)
    have hp := code_prep w.motorPrepared b.lastKey.1 (C.upper k)
    refine ⟨⟨_, prep_nonneg hp, hp, ?_, ?_⟩, ?_⟩
    · exact ⟨s, _, _, _, _, _, _, _, hs, rfl, by simp, round4_isRounded _, rfl, round4_isRounded _, rfl, ht ▸ round4_isRounded _, rfl,
        ht ▸ round4_isRounded _, rfl, ht ▸ round4_isRounded _, rfl, ht ▸ round4_isRounded _, rfl⟩
    · intro hm hl
      obtain ⟨s', hs', p1, p2, p3⟩ := hp
      generalize prepTime w.motorPrepared b.lastKey.1 (C.upper k) = p at p1 p2 p3 ⊢
      refine ⟨s', hs', ?_⟩
      cases hlast : b.lastKey.1 with
      | none => exact p2 hm hlast
      | some l =>
        by_cases he : l = C.upper k
        · exact .inl ⟨he, p1 (.inr (by rw [hlast, he]))⟩
        · rcases hl l hlast with h | ⟨hh, s2, h2, h3⟩
          · exact absurd h he
          · refine .inr ⟨he, s2, h2, .inl ⟨style_unique h3 hs', hh, ?_⟩⟩
            exact p3 hm l hlast he
    · simp only [Alone] at h4 h5 h6 h7
      have e1 := h3.trans (h2.trans h1)
      rw [hw1] at e1
      have : ∀ (w : Mach) i, ({ w with interaction := i } : Mach).buf name = w.buf name := fun _ _ => rfl
      rw [buf_upd_self, h7, h6, this, h5, buf_upd_self, h4, buf_upd_self, e1]
      exact ⟨_, rfl, rfl, rfl, rfl, rfl, rfl⟩

/-- The request to press a key. -/
def exPress (k : String) : Chunk := ⟨"_manual", [("cmd", .vv ⟨.str "press_key", Option.none, [], []⟩), ("key", .vv ⟨.str k, Option.none, [], []⟩)]⟩

/-- Pressing a key when "A" was pressed before. -/
theorem exPressRequest (H : PyHash) (cf : H.CollisionFree) (last : Option String) (k : String) (h : OnKeyboard (exUpper k)) (hk : k ≠ "None")
    (h0 : k ≠ "") (h1 : k ≠ ">") (h2 : k ≠ "<") :
    PressRequest (exCfg (exPy H)) (exMach exManualReg [("manual", { exBuf .motor with lastKey := (last, 0) })]) "manual"
      { exBuf .motor with lastKey := (last, 0) } (exPress k) BV.init k := by
  have hb : ∀ y v, BV.init.get y = some v → PlainVal v := by simp [BV.get, BV.init, alook]
  have hm : ∀ n y, MentionsSlot (exPress k) n y → n = "cmd" ∧ y = ⟨.str "press_key", Option.none, [], []⟩ ∨
      n = "key" ∧ y = ⟨.str k, Option.none, [], []⟩ := by
    rintro n y ⟨hx, _⟩; simpa [exPress] using hx
  have hf := literal_fine BV.init hb "press_key" (by decide) (by decide) (by decide)
  have hg := literal_fine BV.init hb k h0 h1 h2
  refine ⟨rfl, rfl, rfl, ⟨cf, by simp [Named, exPress], rfl, ?_⟩, ⟨?_, ?_, ?_, ?_⟩, hk, h⟩
  · intro n x hx
    rcases hm n x hx with ⟨_, rfl⟩ | ⟨_, rfl⟩
    · exact ⟨hf.1, hf.2.1⟩
    · exact ⟨hg.1, hg.2.1⟩
  · intro n x hx
    rcases hm n x hx with ⟨_, rfl⟩ | ⟨_, rfl⟩
    · exact hf.2.2
    · exact hg.2.2
  · intro n x hx
    rcases hm n x hx with ⟨h, _⟩ | ⟨h, _⟩ <;> simp [h]
  · exact ⟨⟨.str "press_key", Option.none, [], []⟩, ⟨by simp [exPress], .inl ⟨by simp, by simp⟩⟩, .literal (x := ⟨.str "press_key", Option.none, [], []⟩) (by simp [Blank])⟩
  · exact ⟨⟨.str k, Option.none, [], []⟩, ⟨by simp [exPress], .inl ⟨by simpa using hk, by simp⟩⟩, .literal (x := ⟨.str k, Option.none, [], []⟩) (by simp [Blank, h0])⟩

/-- C34 is false: after "A", preparing "J" (the other hand, the same style) takes 50 ms instead of 100 ms. -/
theorem C34_refuted : ¬ C34_full := by
  intro hfull
  obtain ⟨H, cf⟩ := exists_collisionFree
  have hr := exPressRequest H cf (some "A") "j" (.inr ⟨'J', by decide, .inr ⟨by decide, by decide⟩⟩) (by decide) (by decide) (by decide) (by decide)
  have hup : (exCfg (exPy H)).upper "j" = "J" := by show exUpper "j" = "J"; decide
  obtain ⟨⟨evs, w', hc⟩, hall⟩ := C34_partial 0 hr
  obtain ⟨⟨p, _, ⟨s, hs, _, _, hp⟩, hev, _⟩, _⟩ := hall evs w' hc
  obtain ⟨q, ⟨s2, hs2, hq⟩, _, hev2⟩ := hfull _ _ _ _ _ _ _ _ 0 evs hr rfl hc
  rw [hup] at hs hp hs2 hq
  have hhome : StyleOf "J" .home := .inl ⟨rfl, by simp⟩
  have hhomeA : StyleOf "A" .home := .inl ⟨rfl, by simp⟩
  obtain rfl := style_unique hs hhome
  obtain rfl := style_unique hs2 hhome
  have hp := hp rfl "A" rfl (by decide)
  rcases hq with ⟨h, _⟩ | ⟨_, s3, hs3, hq⟩
  · exact absurd h (by decide)
  obtain rfl := style_unique hs3 hhomeA
  have hopp : ¬ SameHand "A" "J" := fun h => h.1 ⟨by simp [LeftKey], by simp [RightKey]⟩
  rcases hq with ⟨_, h, _⟩ | ⟨_, _, hq⟩ | ⟨h, _⟩
  · exact hopp h
  · obtain ⟨_, e0, e1, _, _, _, _, _, _, rfl, _, _, _, ha, _⟩ := hev
    obtain ⟨_, e0', e1', _, _, _, _, _, _, he, _, _, _, ha', _⟩ := hev2
    simp only [List.cons.injEq] at he
    obtain ⟨_, rfl, _⟩ := he
    obtain ⟨_, _, hd, _⟩ := ha
    obtain ⟨_, _, hd', _⟩ := ha'
    rw [hp] at hd; rw [hq] at hd'
    norm_num [StyleTimes] at hd hd'
    rw [abs_le] at hd hd'
    linarith [hd.1, hd.2, hd'.1, hd'.2]
  · exact h rfl

/-- The hypotheses of `C34_partial` are met by pressing "f" after "A", which is prepared in 50 ms as documented. -/
example : ∃ (C : Cfg) (w : Mach) (b : Buf), PressRequest C w "manual" b (exPress "f") BV.init "f" ∧ w.motorPrepared = false ∧ b.lastKey.1 = some "A" ∧
    DocPrep (some "A") "F" (1 / 20) := by
  obtain ⟨H, cf⟩ := exists_collisionFree
  refine ⟨_, _, _, exPressRequest H cf (some "A") "f" (.inr ⟨'F', by decide, .inr ⟨by decide, by decide⟩⟩) (by decide) (by decide) (by decide) (by decide), rfl, rfl, ?_⟩
  refine ⟨.home, .inl ⟨rfl, by simp⟩, .inr ⟨by decide, .home, .inl ⟨rfl, by simp⟩, .inl ⟨rfl, ⟨?_, ?_⟩, by norm_num [StyleTimes]⟩⟩⟩
  · simp [RightKey]
  · simp [RightKey]

end Verif.Props
