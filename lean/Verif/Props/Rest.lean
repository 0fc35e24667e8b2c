import Verif.Lemmas.Status
import Verif.Lemmas.ExMachine
import Verif.Spec.Rest
import Verif.Props.Shift
/-! # C44: modules at rest -/
namespace Verif.Props
open Verif Verif.Spec

/-- The whole of C44: when a request has been carried out to its end, nothing is busy any more, and the state is error exactly when
it was reported that nothing was found. -/
def C44_full : Prop := ∀ (C : Cfg) (d : Desc) (w w' : Mach) (b : Buf) (evs : List Verif.Ev), w.buf (worksFor d) = some b → AtRest b →
  Carried C (Alone (worksFor d)) (d.run C w) evs w' →
  ∃ b', w'.buf (worksFor d) = some b' ∧ AtRest b' ∧ b'.state ≠ .busy ∧ (b'.state = .error ↔ FoundNothing evs)

/-- What is shown of all processes: the buffer is at rest, in a state that fits what was found. -/
def Settles (n : String) (evs : List Verif.Ev) (w : Mach) : Prop :=
  ∃ s, w.doing n = some (s, .free, .free, .free, .free) ∧ s ≠ .busy ∧ (s = .error ↔ FoundFalse evs)

theorem settles_free {n : String} {evs : List Verif.Ev} {w : Mach} (h : w.doing n = some (.free, .free, .free, .free, .free))
    (he : ∀ e ∈ evs, ∀ r, ¬ Outcome e r) : Settles n evs w := by
  refine ⟨_, h, by simp, ?_⟩
  simp only [reduceCtorEq, false_iff]
  rintro ⟨e, hm, h | ⟨c, h, _⟩⟩
  · exact he e hm _ h
  · exact he e hm _ h

section
variable {C : Cfg} {n : String} {v : RVal} {bv : BV} {t : ℚ} {w : Mach} {s : Status}

theorem settles_clear (h : w.doing n = some (s, .free, .free, .free, .free)) :
    (genClear C n v t true w).ends (Alone n) (fun evs w' _ => Settles n evs w') (fun _ _ _ => False) [] := by
  unfold genClear
  simp only [ends_bindM, ends_set, ends_event]
  refine ends_quiet (fun _ => doing_clearBuf) ?_
  intro w1 _ h1 _ w2 h2
  rw [doing_setState, h] at h1
  refine settles_free ?_ (by simp [Outcome])
  simp only [if_true]
  rw [doing_setState, doing_alone h2, h1]; rfl

theorem settles_modifyRequest (h : w.doing n = some (s, .free, .free, .free, .free)) :
    (genModifyRequest C n v bv t w).ends (Alone n) (fun evs w' _ => Settles n evs w') (fun _ _ _ => False) [] := by
  unfold genModifyRequest recordModify
  simp only [ends_bindM, ends_set, ends_event, ends_get, ends_lift]
  intro w1 h1 c _
  have h1 := doing_alone h1
  rw [doing_setState, h] at h1
  refine ends_quiet (n := n) (fun w => ?_) ?_
  · split
    · split <;> rfl
    · rfl
  intro w2 _ h2 _
  refine ends_quiet (fun _ => doing_modifyBuf) ?_
  intro w3 _ h3 _ w4 h4
  refine settles_free ?_ (by simp [Outcome])
  rw [doing_alone h4, doing_setState, h3, h2, h1]; rfl

/-- Clearing as a part of something else. -/
theorem ends_clearing {acc : List Verif.Ev} {q : Status × Status × Status × Status × Status} {Q : List Verif.Ev → Mach → Unit → Prop}
    {K : List Verif.Ev → Mach → Desc → Prop} (h : w.doing n = some q)
    (hq : ∀ w', w'.doing n = some (.busy, q.2) → Q (acc ++ [⟨round4 t, n, .cleared⟩]) w' ()) : (genClear C n v t false w).ends (Alone n) Q K acc := by
  unfold genClear
  simp only [ends_bindM, ends_set, ends_event]
  refine ends_quiet (fun _ => doing_clearBuf) ?_
  intro w1 _ h1 _ w2 h2
  rw [doing_setState, h] at h1
  exact hq _ (by simp only [Bool.false_eq_true, if_false]; rw [doing_alone h2, h1]; rfl)

theorem settles_setGoal (h : w.doing n = some (s, .free, .free, .free, .free)) :
    (genSetGoal C n v bv t w).ends (Alone n) (fun evs w' _ => Settles n evs w') (fun _ _ _ => False) [] := by
  unfold genSetGoal recordSet
  simp only [ends_bindM, ends_set, ends_event, ends_get, ends_lift]
  refine ends_clearing h ?_
  intro w1 h1 w2 h2 c _
  have h2 := doing_alone h2
  refine ends_quiet (n := n) (fun _ => doing_createIn) ?_
  intro w3 _ h3 _
  refine ends_quiet (n := n) (fun _ => doing_firstOf) ?_
  intro w4 _ h4 _ w5 h5
  refine settles_free ?_ (by simp [Outcome])
  have h3' : w3.doing n = w2.doing n := by rw [h3]; split <;> rfl
  rw [doing_alone h5, doing_setState, h4, h3', h2, h1]; rfl

theorem settles_retrieve (h : w.doing n = some (s, .free, .free, .free, .free)) :
    (genRetrieve C n v bv t w).ends (Alone n) (fun evs w' _ => Settles n evs w') (fun _ _ _ => False) [] := by
  unfold genRetrieve recordRetrieved
  simp only [ends_bindM, ends_set, ends_event, ends_lift]
  intro w1 h1 c _
  have h1 := doing_alone h1
  refine ends_quiet (n := n) (fun _ => doing_retrieveIn) ?_
  intro w2 r h2 _ w3 h3
  have h3 := doing_alone h3
  split
  · next hr =>
    simp only [ends_bindM, ends_set, ends_event]
    intro w4 h4
    have h4 := doing_alone h4
    have h5 : w4.doing n = some (.error, .free, .free, .free, .free) := by
      rw [h4]
      split
      · change ((w3.setState n .error).doing n) = _
        rw [doing_setState, h3, h2, h1, h]; rfl
      · rw [doing_setState, h3, h2, h1, h]; rfl
    refine ⟨_, h5, by simp, ?_⟩
    simp only [true_iff]
    refine ⟨⟨round4 (t + r.2), n, .retrieved r.1⟩, by simp, ?_⟩
    cases hr1 : r.1 with
    | none => exact .inl (.inl rfl)
    | some c =>
      refine .inr ⟨c, .inl rfl, ?_⟩
      rw [hr1] at hr
      simpa [notRetrieved] using hr
  · next hr =>
    simp only [ends_bindM, ends_set, ends_event]
    intro w4 h4
    have h4 := doing_alone h4
    refine ends_quiet (n := n) (fun _ => doing_onBuf) ?_
    intro w5 _ h5 _ w6 h6
    have h6 := doing_alone h6
    have h7 : w6.doing n = some (.free, .free, .free, .free, .free) := by
      rw [h6]
      split
      · change ((w5.setState n .free).doing n) = _
        rw [doing_setState, h5, h4, h3, h2, h1, h]; rfl
      · rw [doing_setState, h5, h4, h3, h2, h1, h]; rfl
    refine ⟨_, h7, by simp, ?_⟩
    simp only [reduceCtorEq, false_iff]
    rintro ⟨e, hm, ho⟩
    have hm : e.act = .retrieved r.1 ∨ ∀ x, ¬ Outcome e x := by
      simp only [List.nil_append, List.cons_append, List.mem_cons, List.not_mem_nil, or_false] at hm
      rcases hm with rfl | rfl | rfl | rfl <;> simp [Outcome]
    rcases hm with hm | hm
    · cases hr1 : r.1 with
      | none => rw [hr1] at hr; simp [notRetrieved] at hr
      | some d =>
        rw [hr1] at hr hm
        rcases ho with (ho | ho) | ⟨c, ho | ho, hc⟩ <;> rw [hm] at ho <;> cases ho
        simp [notRetrieved, hc] at hr
    · rcases ho with ho | ⟨c, ho, _⟩
      · exact hm _ ho
      · exact hm _ ho

theorem settles_findLocation (h : w.doing n = some (s, .free, .free, .free, .free)) :
    (genFindLocation C n v bv t w).ends (Alone n) (fun evs w' _ => Settles n evs w') (fun _ _ _ => False) [] := by
  unfold genFindLocation
  simp only [ends_bindM, ends_event, ends_lift]
  intro w1 h1 c _
  have h1 := doing_alone h1
  refine ends_quiet (n := n) (fun _ => doing_findIn) ?_
  intro w2 r h2 _
  have fail : ∀ (x : Option Chunk) (w4 : Mach), (x = Option.none ∨ ∃ c, x = some c ∧ c.slots = []) → Alone n (w2.setState n .error) w4 →
      Settles n ([] ++ [⟨round4 t, n, .unknown⟩] ++ [⟨round4 t, n, .encodedLoc x⟩]) w4 := by
    intro x w4 hx h4
    have h4 := doing_alone h4
    rw [doing_setState, h2, h1, h] at h4
    refine ⟨_, h4, by simp, ?_⟩
    simp only [true_iff]
    refine ⟨⟨round4 t, n, .encodedLoc x⟩, by simp, ?_⟩
    rcases hx with rfl | ⟨c, rfl, hc⟩
    · exact .inl (.inr rfl)
    · exact .inr ⟨c, .inr rfl, hc⟩
  obtain ⟨x, st⟩ := r
  cases x with
  | some found =>
    dsimp only
    split
    · next he =>
      simp only [ends_bindM, ends_set, ends_event]
      exact fun w4 h4 => fail _ w4 (.inr ⟨found, rfl, by simpa using he⟩) h4
    · next he =>
      simp only [ends_bindM, ends_set, ends_event]
      refine ends_clearing (h2.trans (h1.trans h)) ?_
      intro w3 h3
      refine ends_quiet (n := n) (fun _ => doing_addLocation) ?_
      intro w4 _ h4 _ w5 h5
      have h5 := doing_alone h5
      rw [doing_setState, h4, h3] at h5
      refine ⟨_, h5, by simp, ?_⟩
      simp only [reduceCtorEq, false_iff]
      rintro ⟨e, hm, ho⟩
      have hm : e.act = .encodedLoc (some found) ∨ ∀ x, ¬ Outcome e x := by
        simp only [List.nil_append, List.cons_append, List.mem_cons, List.not_mem_nil, or_false] at hm
        rcases hm with rfl | rfl | rfl <;> simp [Outcome]
      rcases hm with hm | hm
      · rcases ho with (ho | ho) | ⟨c, ho | ho, hc⟩ <;> rw [hm] at ho <;> cases ho
        simp [hc] at he
      · rcases ho with ho | ⟨c, ho, _⟩
        · exact hm _ ho
        · exact hm _ ho
  | none =>
    simp only [ends_bindM, ends_set, ends_event]
    exact fun w4 h4 => fail _ w4 (.inl rfl) h4

theorem settles_autoBuffer {l : List Stim} (h : w.doing n = some (s, .free, .free, .free, .free)) :
    (genAutoBuffer C n l t w).ends (Alone n) (fun evs w' _ => Settles n evs w') (fun _ _ _ => False) [] := by
  unfold genAutoBuffer
  simp only [ends_bindM, ends_set, ends_event]
  refine ends_quiet (n := n) (fun w => ?_) ?_
  · split
    · exact doing_autoBufferLoop _ _ _
    · rfl
  intro w1 r h1 _ w2 h2
  have h2 := doing_alone h2
  rw [h1, doing_upd (g := fun q => (.busy, q.2.1, q.2.2.1, q.2.2.2.1, .busy)) (by intro b; rfl), h] at h2
  have h3 : (w2.upd n fun b => { b with state := .free, autoattending := .free }).doing n = some (.free, .free, .free, .free, .free) := by
    rw [doing_upd (g := fun q => (.free, q.2.1, q.2.2.1, q.2.2.2.1, .free)) (by intro b; rfl), h2]; rfl
  split
  · split
    · exact settles_free h3 (by simp [Outcome])
    · simp only [ends_bindM, ends_event]
      refine ends_quiet (n := n) (fun _ => doing_onBuf) ?_
      intro w4 _ h4 _ w5 h5
      exact settles_free (by rw [doing_alone h5, h4, h3]) (by simp [Outcome])
  · exact settles_free h3 (by simp [Outcome])

/-- Encoding as a part of something else. -/
theorem ends_encoding {c : Chunk} {x : ℚ} {site : ℚ × ℚ} {acc : List Verif.Ev} {q : Status × Status × Status × Status × Status}
    {Q : List Verif.Ev → Mach → Unit → Prop} {K : List Verif.Ev → Mach → Desc → Prop} (h : w.doing n = some q)
    (hq : ∀ w', w'.doing n = some (.free, q.2) →
      Q (acc ++ [⟨round4 (t + x), n, .cleared⟩] ++ [⟨round4 (t + x), n, .encoded c⟩]) w' ()) : (genVisualencode C n c t x site w).ends (Alone n) Q K acc := by
  unfold genVisualencode
  simp only [ends_bindM, ends_set, ends_event]
  refine ends_clearing (q := (.busy, q.2)) ?_ ?_
  · rw [doing_same (by intro b; rfl), doing_setState, h]; rfl
  intro w1 h1
  refine ends_quiet (n := n) (fun _ => doing_onBuf) ?_
  intro w2 _ h2 _ w3 h3
  refine hq _ ?_
  rw [doing_alone h3, doing_setState, h2, h1]; rfl

/-- What a shift or a movement of the hands leaves to its continuation. -/
structure Leaves (n : String) (acc : List Verif.Ev) (w1 : Mach) (d : Desc) : Prop where
  quiet : ∀ e ∈ acc, ∀ r, ¬ Outcome e r
  doing : ∃ s, w1.doing n = some (s, .busy, .busy, .free, .free)
  next : (∃ c bv t x y, d = .visualContinue n c bv t x y) ∨ (∃ k t p, d = .motorContinue n k t p)

theorem leaves_shift {Q : List Verif.Ev → Mach → Unit → Prop} (h : w.doing n = some (s, .free, .free, .free, .free)) :
    (genVisualshift C n v bv t w).ends (Alone n) Q (Leaves n) [] := by
  unfold genVisualshift
  simp only [ends_bindM, ends_set, ends_event, ends_lift]
  intro c _
  refine ends_quiet (n := n) (fun _ => doing_shiftIn) ?_
  intro w1 r h1 _ w2 h2
  have h2 := doing_alone h2
  rw [doing_upd (g := fun q => (.busy, .busy, .busy, q.2.2.2)) (by intro b; rfl), h1, h] at h2
  split
  · simp only [ends_bindM, ends_event]
    refine ends_encoding h2 ?_
    intro w3 h3 w4 h4
    have h4 := doing_alone h4
    rw [h3] at h4
    split
    · simp only [ends_bindM, ends_cont]
      refine ends_encoding h4 ?_
      intro w5 h5
      exact ⟨by simp [Outcome], ⟨_, h5⟩, .inl ⟨_, _, _, _, _, rfl⟩⟩
    · exact ⟨by simp [Outcome], ⟨_, h4⟩, .inl ⟨_, _, _, _, _, rfl⟩⟩
  · simp only [ends_bindM, ends_event]
    intro w4 h4
    have h4 := doing_alone h4
    rw [h2] at h4
    split
    · simp only [ends_bindM, ends_cont]
      refine ends_encoding h4 ?_
      intro w5 h5
      exact ⟨by simp [Outcome], ⟨_, h5⟩, .inl ⟨_, _, _, _, _, rfl⟩⟩
    · exact ⟨by simp [Outcome], ⟨_, h4⟩, .inl ⟨_, _, _, _, _, rfl⟩⟩

theorem leaves_motorset {Q : List Verif.Ev → Mach → Unit → Prop} (h : w.doing n = some (s, .free, .free, .free, .free)) :
    (genMotorset C n v bv t w).ends (Alone n) Q (Leaves n) [] := by
  unfold genMotorset
  simp only [ends_bindM, ends_set, ends_event, ends_lift, ends_get, ends_cont]
  intro c _
  refine ends_quiet (n := n) (fun _ => doing_motorCreateIn) ?_
  intro w1 r h1 _ w2 h2 w3 h3
  have h2 := doing_alone h2
  have h3 := doing_alone h3
  rw [doing_upd (g := fun q => (.busy, .busy, .busy, q.2.2.2)) (by intro b; rfl)] at h2
  have e : ∀ p : Prop, [Decidable p] → (if p then ({ w1 with motorPrepared := false } : Mach) else w1).doing n = w1.doing n := by
    intro p _; split <;> rfl
  rw [e, h1, h] at h2
  rw [h2] at h3
  exact ⟨by simp [Outcome], ⟨_, h3⟩, .inr ⟨_, _, _, rfl⟩⟩

theorem settles_visualContinue {c : Chunk} {x : ℚ × ℚ × ℚ} {y : ℚ × ℚ} {p q r : Status} (h : w.doing n = some (s, p, q, r, .free)) :
    (genVisualcontinue C n c bv t x y w).ends (Alone n) (fun evs w' _ => w'.doing n = some (.free, .free, .free, .free, .free) ∧
      ∀ e ∈ evs, ∀ r, ¬ Outcome e r) (fun _ _ _ => False) [] := by
  unfold genVisualcontinue
  simp only [ends_bindM, ends_set, ends_event, ends_get]
  intro w1 h1 w2 h2
  have h1 := doing_alone h1
  have h2 := doing_alone h2
  rw [doing_same (by intro b; rfl), doing_upd (g := fun q => (q.1, .free, q.2.2.1, .busy, q.2.2.2.2)) (by intro b; rfl), h] at h1
  rw [doing_same (by intro b; rfl)] at h2
  change w2.doing n = w1.doing n at h2
  rw [h1] at h2
  by_cases hlt : x.2.1 + x.2.2 < x.1
  · rw [if_pos hlt]
    simp only [ends_bindM]
    refine ends_quiet (n := n) (fun _ => doing_shiftIn) ?_
    intro w3 r h3 _
    by_cases h0 : x.1 = 0
    · rw [if_pos h0]; trivial
    · rw [if_neg h0]
      simp only [ends_bindM, ends_set]
      refine ends_encoding (h3.trans h2) ?_
      intro w4 h4
      refine ⟨?_, by simp [Outcome]⟩
      rw [doing_upd (g := fun q => (.free, q.2.1, .free, .free, q.2.2.2.2)) (by intro b; rfl), h4]; rfl
  · rw [if_neg hlt]
    simp only [ends_set]
    refine ⟨?_, by simp [Outcome]⟩
    rw [doing_upd (g := fun q => (.free, q.2.1, .free, .free, q.2.2.2.2)) (by intro b; rfl), h2]; rfl

theorem settles_motorContinue {k : String} {x : ℚ × ℚ × ℚ × ℚ} {p q r : Status} (h : w.doing n = some (s, p, q, r, .free)) :
    (genMotorcontinue n k t x w).ends (Alone n) (fun evs w' _ => w'.doing n = some (.free, .free, .free, .free, .free) ∧
      ∀ e ∈ evs, ∀ r, ¬ Outcome e r) (fun _ _ _ => False) [] := by
  unfold genMotorcontinue
  simp only [ends_bindM, ends_set, ends_event, ends_get]
  intro w1 h1 w2 h2 w3 h3 w4 h4
  have h1 := doing_alone h1
  have h2 := doing_alone h2
  have h3 := doing_alone h3
  have h4 := doing_alone h4
  rw [doing_upd (g := fun q => (q.1, .free, q.2.2.1, .busy, q.2.2.2.2)) (by intro b; rfl), h] at h1
  rw [doing_upd (g := fun q => (q.1, q.2.1, .free, q.2.2.2)) (by intro b; rfl), h1] at h2
  change w3.doing n = w2.doing n at h3
  refine ⟨?_, by simp [Outcome]⟩
  rw [doing_upd (g := fun q => (.free, q.2.1, q.2.2.1, .free, q.2.2.2.2)) (by intro b; rfl), h4, h3, h2]; rfl

end

/-! ## All processes -/

theorem settles_continues {C : Cfg} {d : Desc} {n : String} {w w' : Mach} {evs : List Verif.Ev} {s p q r : Status}
    (hd : (∃ c bv t x y, d = .visualContinue n c bv t x y) ∨ (∃ k t p, d = .motorContinue n k t p)) (h : w.doing n = some (s, p, q, r, .free))
    (hc : Carried C (Alone n) (d.run C w) evs w') :
    w'.doing n = some (.free, .free, .free, .free, .free) ∧ ∀ e ∈ evs, ∀ r, ¬ Outcome e r := by
  rcases hd with ⟨c, bv, t, x, y, rfl⟩ | ⟨k, t, x, rfl⟩
  · rcases carried_ends hc (settles_visualContinue h) with h | ⟨_, _, _, _, _, _, h, _⟩
    · simpa using h
    · exact h.elim
  · rcases carried_ends hc (settles_motorContinue h) with h | ⟨_, _, _, _, _, _, h, _⟩
    · simpa using h
    · exact h.elim

/-- The first part of a request has ended, or has left its continuation. -/
theorem settles_request {C : Cfg} {n : String} {v : RVal} {bv : BV} {t : ℚ} {w : Mach} {s : Status} (h : w.doing n = some (s, .free, .free, .free, .free)) :
    (genRetrieveorset C n v bv t w).ends (Alone n) (fun evs w' _ => Settles n evs w' ∨ (evs = [] ∧ w'.doing n = some (.busy, .free, .free, .free, .free)))
      (Leaves n) [] := by
  have h0 : (w.setState n .busy).doing n = some (.busy, .free, .free, .free, .free) := by rw [doing_setState, h]; rfl
  unfold genRetrieveorset
  simp only [ends_bindM, ends_set, ends_get]
  generalize w.setState n .busy = w0 at h0
  have nk : ∀ a w x, (fun (_ : List Verif.Ev) (_ : Mach) (_ : Desc) => False) a w x → Leaves n a w x := fun _ _ _ h => h.elim
  generalize Option.map Buf.cls (w0.buf n) = cls
  cases cls with
  | none => trivial
  | some cls =>
    cases cls with
    | goal => exact ends_mono (fun _ _ _ h => .inl h) nk (settles_setGoal h0)
    | decmem => exact ends_mono (fun _ _ _ h => .inl h) nk (settles_retrieve h0)
    | visualLocation => exact ends_mono (fun _ _ _ h => .inl h) nk (settles_findLocation h0)
    | motor =>
      simp only [ends_bindM, ends_nothing]
      exact leaves_motorset h0
    | visual =>
      unfold genVisual
      simp only [ends_bindM, ends_lift]
      intro c _ mods _
      cases alook "cmd" mods with
      | none => trivial
      | some x =>
        dsimp only
        split
        · trivial
        · split
          · simp only [ends_bindM, ends_nothing]
            exact leaves_shift h0
          · split
            · simp only [ends_bindM, ends_set, ends_event]
              intro w1 h1
              left
              refine settles_free ?_ (by simp [Outcome])
              rw [doing_alone h1, doing_upd (g := fun q => (.free, q.2)) (by intro b; rfl), h0]; rfl
            · exact .inr ⟨rfl, h0⟩

theorem doing_atRest {b : Buf} (h : AtRest b) : b.doing = (b.state, .free, .free, .free, .free) := by
  unfold Buf.doing; rw [h.preparation, h.processor, h.execution, h.autoattending]

/-- C44 for all processes but the automatic search (`C44_search`) and visual requests that do and report nothing (`C44_idle`). A search
that finds a chunk without slots ends in the state error, too. -/
theorem C44_partial : ∀ (C : Cfg) (d : Desc) (w w' : Mach) (b : Buf) (evs : List Verif.Ev), w.buf (worksFor d) = some b → AtRest b →
    (∀ n l t, d ≠ .autoSearch n l t) → evs ≠ [] → Carried C (Alone (worksFor d)) (d.run C w) evs w' →
    ∃ b', w'.buf (worksFor d) = some b' ∧ AtRest b' ∧ b'.state ≠ .busy ∧ (b'.state = .error ↔ FoundFalse evs) := by
  intro C d w w' b evs hb hr hs hne hc
  have h : w.doing (worksFor d) = some (b.state, .free, .free, .free, .free) := by
    unfold Mach.doing; rw [hb, Option.map_some, doing_atRest hr]
  suffices hset : Settles (worksFor d) evs w' by
    obtain ⟨s, h1, h2, h3⟩ := hset
    unfold Mach.doing at h1
    cases hb' : w'.buf (worksFor d) with
    | none => rw [hb'] at h1; cases h1
    | some b' =>
      rw [hb'] at h1
      simp only [Option.map_some, Buf.doing, Option.some.injEq, Prod.mk.injEq] at h1
      obtain ⟨rfl, g1, g2, g3, g4⟩ := h1
      exact ⟨b', rfl, ⟨g1, g2, g3, g4⟩, h2, h3⟩
  cases d with
  | retrieveorset n v bv t =>
    rcases carried_ends hc (settles_request h) with (h | ⟨h, _⟩) | ⟨evs1, evs2, w1, w2, d, rfl, ⟨hq, ⟨s, hs⟩, hd⟩, hw, hc2⟩
    · simpa using h
    · exact absurd (by simpa using h) hne
    · obtain ⟨h1, h2⟩ := settles_continues hd ((doing_alone hw).trans hs) hc2
      refine settles_free h1 ?_
      intro e he r
      rcases List.mem_append.mp he with he | he
      · exact hq e (by simpa using he) r
      · exact h2 e he r
  | modifyRequest n v bv t =>
    rcases carried_ends hc (settles_modifyRequest h) with h | ⟨_, _, _, _, _, _, h, _⟩
    · simpa using h
    · exact h.elim
  | clear n bv t =>
    rcases carried_ends hc (settles_clear h) with h | ⟨_, _, _, _, _, _, h, _⟩
    · simpa using h
    · exact h.elim
  | autoSearch n l t => exact absurd rfl (hs n l t)
  | autoBuffer n l t =>
    rcases carried_ends hc (settles_autoBuffer h) with h | ⟨_, _, _, _, _, _, h, _⟩
    · simpa using h
    · exact h.elim
  | visualContinue n c bv t x y =>
    obtain ⟨h1, h2⟩ := settles_continues (.inl ⟨_, _, _, _, _, rfl⟩) h hc
    exact settles_free h1 h2
  | motorContinue n k t x =>
    obtain ⟨h1, h2⟩ := settles_continues (.inr ⟨_, _, _, rfl⟩) h hc
    exact settles_free h1 h2

/-- An automatic search always leaves its buffer busy. -/
theorem C44_search (C : Cfg) (n : String) (l : List Stim) (t : ℚ) (w w' : Mach) (b : Buf) (evs : List Verif.Ev) (hb : w.buf n = some b)
    (hc : Carried C (Alone n) ((Desc.autoSearch n l t).run C w) evs w') : (w'.buf n).map Buf.state = some .busy := by
  have key : ((Desc.autoSearch n l t).run C w).ends (Alone n) (fun _ w' _ => (w'.doing n).map Prod.fst = some .busy) (fun _ _ _ => False) [] := by
    show (genAutoSearch C n l t w).ends _ _ _ _
    unfold genAutoSearch
    simp only [ends_bindM, ends_set]
    have h0 : ((w.setState n .busy).doing n).map Prod.fst = some .busy := by
      rw [doing_setState]; unfold Mach.doing; rw [hb]; rfl
    generalize w.setState n .busy = w0 at h0
    refine ends_quiet (n := n) (fun w => ?_) ?_
    · split
      · split <;> rfl
      · rfl
    intro w1 r h1 _
    cases r with
    | none =>
      simp only [ends_event]
      intro w2 h2
      rw [doing_alone h2, h1, h0]
    | some x =>
      dsimp only
      split
      · simp only [ends_event]
        intro w2 h2
        rw [doing_alone h2, h1, h0]
      · simp only [ends_bindM, ends_get]
        split
        · simp only [ends_bindM, ends_event]
          refine ends_quiet (n := n) (fun w => ?_) ?_
          · split
            · exact Eq.trans (doing_same (by intro b; rfl)) (doing_onBuf' (by assumption))
            · exact doing_onBuf' (by assumption)
          intro w2 _ h2 _ w3 h3
          rw [doing_alone h3, h2, h1, h0]
        · simp only [ends_bindM, ends_event]
          refine ends_quiet (n := n) (fun _ => doing_addLocation) ?_
          intro w2 _ h2 _ w3 h3
          rw [doing_alone h3, h2, h1, h0]
  rcases carried_ends hc key with h | ⟨_, _, _, _, _, _, h, _⟩
  · unfold Mach.doing at h
    cases hb' : w'.buf n with
    | none => rw [hb'] at h; cases h
    | some b' => rw [hb'] at h; exact h
  · exact h.elim

/-- A request to look at something with the command 'None' does and reports nothing and leaves its buffer busy. -/
theorem C44_idle (C : Cfg) (n : String) (c : Chunk) (bv : BV) (t : ℚ) (w w' : Mach) (b : Buf) (evs : List Verif.Ev) (mods : List (String × VarVal)) (x : VarVal)
    (hb : w.buf n = some b) (hv : b.cls = .visual) (hm : resolveAll C.P bv true (removeUnused C.P.H c) = .ok mods) (hx : alook "cmd" mods = some x)
    (hn : x.values = .str "None") (hc : Carried C (Alone n) ((Desc.retrieveorset n (.chunk c) bv t).run C w) evs w') :
    evs = [] ∧ (w'.buf n).map Buf.state = some .busy := by
  have key : ((Desc.retrieveorset n (.chunk c) bv t).run C w).ends (Alone n) (fun evs w' _ => evs = [] ∧ (w'.buf n).map Buf.state = some .busy)
      (fun _ _ _ => False) [] := by
    show (genRetrieveorset C n (.chunk c) bv t w).ends _ _ _ _
    unfold genRetrieveorset
    simp only [ends_bindM, ends_set, ends_get, buf_setState_self, hb, Option.map_some, hv]
    unfold genVisual
    simp only [ends_bindM, ends_lift]
    intro c' hc' mods' hm'
    cases hc'
    rw [hm] at hm'
    cases hm'
    rw [hx]
    dsimp only
    split
    · trivial
    · rw [hn, if_neg (by rw [show pyEq C.P.H (.str "None") (.str "move_attention") = false from rfl]; simp),
        if_neg (by rw [show pyEq C.P.H (.str "None") (.str "clear") = false from rfl]; simp)]
      exact ⟨rfl, by simp [hb]⟩
  rcases carried_ends hc key with h | ⟨_, _, _, _, _, _, h, _⟩
  · simpa using h
  · exact h.elim

/-- C44 is false: an automatic search does not set its buffer free. -/
theorem C44_refuted : ¬ C44_full := by
  obtain ⟨H, _⟩ := exists_collisionFree
  intro h
  have hf : Finishes (exCfg (exPy H)) (Alone "where") (fun _ => True)
      ((Desc.autoSearch "where" [] 0).run (exCfg (exPy H)) (exMach [] [("where", exBuf .visualLocation)])) := finishes_ev rfl ⟨⟩ finishes_ret
  obtain ⟨evs, w', hc, _⟩ := hf
  obtain ⟨b', hb, _, hn, _⟩ := h _ (.autoSearch "where" [] 0) _ _ _ _ rfl ⟨rfl, rfl, rfl, rfl⟩ hc
  have := C44_search _ _ _ _ _ _ _ _ rfl hc
  simp only [worksFor] at hb
  rw [hb] at this
  exact hn (by simpa using this)

/-- A request with the command 'None'. -/
example (H : PyHash) (cf : H.CollisionFree) : ∃ C n c bv t w w' b evs mods x, w.buf n = some b ∧ b.cls = .visual ∧
    resolveAll C.P bv true (removeUnused C.P.H c) = .ok mods ∧ alook "cmd" mods = some x ∧ x.values = .str "None" ∧
    Carried C (Alone n) ((Desc.retrieveorset n (.chunk c) bv t).run C w) evs w' := by
  have hr : resolveAll (exPy H) BV.init true (removeUnused H ⟨"_visual", [("cmd", .vv (exLit "None"))]⟩) = .ok [("cmd", exLit "None")] := by
    have h1 : removeUnused H ⟨"_visual", [("cmd", .vv (exLit "None"))]⟩ = [("cmd", exLit "None")] := rfl
    have h2 := check_literal (P := exPy H) (bv := BV.init) (ni := true) (v := .str "None") (isRelation_false cf (plainVal_str _) (by simp) (by simp)) rfl
    rw [h1]
    simp only [resolveAll, exLit, h2]
    rfl
  refine ⟨exCfg (exPy H), "visual", ⟨"_visual", [("cmd", .vv (exLit "None"))]⟩, BV.init, 0, exMach [] [("visual", exBuf .visual)],
    (exMach [] [("visual", exBuf .visual)]).setState "visual" .busy, exBuf .visual, [], _, _, rfl, rfl, hr, rfl, rfl, ?_⟩
  show Carried _ _ (genVisual (exCfg (exPy H)) "visual" (.chunk ⟨"_visual", [("cmd", .vv (exLit "None"))]⟩) BV.init 0 _) _ _
  unfold genVisual
  simp only [genM_bind_apply, RVal.asChunk, genM_lift_ok, out_bind_ret]
  rw [show (exCfg (exPy H)).P = exPy H from rfl, show (exPy H).H = H from rfl, hr]
  simp only [genM_lift_ok, out_bind_ret]
  rw [show alook "cmd" [("cmd", exLit "None")] = some (exLit "None") from rfl]
  dsimp only
  have hk : keyEq H (.str "None") (.str "None") = true := by simp [keyEq, View.keyEq, Val.view, View.eq]
  rw [if_neg (by simp [exLit, hk, Val.truthy]), if_neg (by rw [show pyEq H (exLit "None").values (.str "move_attention") = false from rfl]; simp),
    if_neg (by rw [show pyEq H (exLit "None").values (.str "clear") = false from rfl]; simp)]
  exact .ret

/-- The hypotheses of `C44_partial` are met by a movement of the hands. -/
example (H : PyHash) : ∃ C d w w' b evs, w.buf (worksFor d) = some b ∧ AtRest b ∧ (∀ n l t, d ≠ .autoSearch n l t) ∧ evs ≠ [] ∧
    Carried C (Alone (worksFor d)) (d.run C w) evs w' :=
  ⟨exCfg (exPy H), .motorContinue "manual" "A" 0 (0, 1, 1, 1), exMach [] [("manual", exBuf .motor)], _, exBuf .motor, _, rfl, ⟨rfl, rfl, rfl, rfl⟩,
    nofun, by simp, .ev rfl (.ev rfl (.ev rfl (.ev rfl .ret)))⟩

/-! ## Actions that are carried out at once -/

theorem execAll_isSome (C : Cfg) (n : String) : ∀ l w, (w.buf n).isSome → ((execAll C n l w).1.buf n).isSome
  | [], w, h => h
  | c :: r, w, h => by
    simp only [execAll]
    split
    · exact h
    · split
      · exact execAll_isSome C n r _ (by rw [buf_upd_self]; simpa using h)
      · rw [buf_upd_self]; simpa using h

theorem doing_state {n : String} {w : Mach} {q : Status × Status × Status × Status × Status} (h : w.doing n = some q) : (w.buf n).map Buf.state = some q.1 := by
  unfold Mach.doing at h
  cases hb : w.buf n with
  | none => rw [hb] at h; cases h
  | some b => rw [hb] at h; cases h; rfl

/-- After an action that is carried out at once, the buffer is free. -/
theorem C44_immediate (C : Cfg) (k : Key) (v : RVal) (bv : BV) (t : ℚ) (w w' : Mach) (b : Buf) (evs : List Verif.Ev) (hb : w.buf k.name = some b)
    (hc : Carried C (Alone k.name) (immediate C k v bv t w) evs w') : (w'.buf k.name).map Buf.state = some .free := by
  obtain ⟨code, n⟩ := k
  simp only at hb hc ⊢
  have h : w.doing n = some b.doing := by unfold Mach.doing; rw [hb]; rfl
  have key : (immediate C ⟨code, n⟩ v bv t w).ends (Alone n) (fun _ w' _ => (w'.buf n).map Buf.state = some .free) (fun _ _ _ => False) [] := by
    unfold immediate
    simp only
    split
    · unfold genExtraTest
      simp only [ends_bindM, ends_set, ends_event]
      intro w1 h1
      refine doing_state (q := (.free, b.doing.2)) ?_
      rw [doing_alone h1, doing_setState]
      change ((w.setState n .busy).doing n).map _ = _
      rw [doing_setState, h]; rfl
    · split
      · unfold genExecute
        simp only [ends_bindM, ends_set, ends_event, ends_act]
        intro w1 _ h1 w2 h2
        have h2 : w2.buf n = _ := h2
        rw [h2, buf_setState_self]
        cases v with
        | cmds l =>
          have := execAll_isSome C n l (w.setState n .busy) (by rw [buf_setState_self, hb]; rfl)
          simp only at h1
          rw [h1] at this
          obtain ⟨b', hb'⟩ := Option.isSome_iff_exists.mp this
          simp only at hb'
          rw [hb']; rfl
        | _ => cases h1
      · split
        · unfold genModify recordModify
          simp only [ends_bindM, ends_set, ends_event, ends_lift]
          intro c _
          refine ends_quiet (n := n) (fun w => ?_) ?_
          · split
            · split <;> rfl
            · rfl
          intro w1 _ h1 _
          refine ends_quiet (n := n) (fun _ => doing_modifyBuf) ?_
          intro w2 _ h2 _ w3 h3
          refine doing_state (q := (.free, b.doing.2)) ?_
          rw [doing_alone h3, doing_setState, h2, h1, doing_setState, h]; rfl
        · split
          · unfold genOverwrite recordSet
            simp only [ends_bindM, ends_set, ends_event, ends_lift, ends_get]
            intro w1 h1 c _
            refine ends_quiet (n := n) (fun _ => doing_createIn) ?_
            intro w2 _ h2 _
            refine ends_quiet (n := n) (fun _ => doing_firstOf) ?_
            intro w3 _ h3 _ w4 h4
            refine doing_state (q := (.free, b.doing.2)) ?_
            have h2' : w2.doing n = w1.doing n := by rw [h2]; split <;> rfl
            rw [doing_alone h4, doing_setState, h3, h2', doing_alone h1, doing_setState, h]; rfl
          · unfold genClear
            simp only [ends_bindM, ends_set, ends_event]
            refine ends_quiet (n := n) (fun _ => doing_clearBuf) ?_
            intro w1 _ h1 _ w2 h2
            refine doing_state (q := (.free, b.doing.2)) ?_
            simp only [if_true]
            rw [doing_setState, doing_alone h2, h1, doing_setState, h]; rfl
  rcases carried_ends hc key with h | ⟨_, _, _, _, _, _, h, _⟩
  · exact h
  · exact h.elim

/-- Such an action. -/
example (H : PyHash) : ∃ C k v bv t w w' b evs, w.buf k.name = some b ∧ Carried C (Alone k.name) (immediate C k v bv t w) evs w' :=
  ⟨exCfg (exPy H), ⟨'!', "g"⟩, .cmds [], BV.init, 0, exMach [] [("g", exBuf .goal)], _, _, _, rfl, .ev rfl .ret⟩

end Verif.Props
