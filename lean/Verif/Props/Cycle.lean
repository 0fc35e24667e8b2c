import Verif.Lemmas.Machine
import Verif.Lemmas.Rounding
import Verif.Lemmas.ExMachine
import Verif.Spec.Cycle
import Verif.Props.Rules
import Verif.Props.Compile
/-! # Property C30: selection and firing -/
namespace Verif.Props
open Verif Verif.Spec

/-! ## Conflict resolution -/

theorem selectC_cases (H : PyHash) (bufs : Faces) (p : UParams) (rules : CRules) (draws : ℕ → ℚ) (names : List String) :
    ∀ k best r, selectC H bufs p rules BV.init draws k names best = .ok r →
      (r = Option.none → best = Option.none ∧ ∀ n ∈ names, Fails H bufs rules n) ∧
      (∀ n u, r = some (n, u) → best = some (n, u) ∨ (n ∈ names ∧ ∃ bv, Holds H bufs rules n bv)) := by
  induction names with
  | nil => intro k best r h; simp only [selectC, Except.ok.injEq] at h; subst h; exact ⟨fun h => ⟨h, by simp⟩, fun n u h => .inl h⟩
  | cons name names ih =>
    intro k best r h
    simp only [selectC] at h
    cases hr : alook name rules with
    | none => simp [hr] at h
    | some rule =>
    simp only [hr] at h
    cases hl : rule.body.lhs with
    | error x => simp [hl] at h
    | ok lhs =>
    simp only [hl] at h
    cases hd : utilityDraw p (draws k) with
    | error x => simp [hd] at h
    | ok nz =>
    simp only [hd] at h
    have hcase : (best ≠ Option.none ∧ selectC H bufs p rules BV.init draws (k + 1) names best = .ok r) ∨
        (lhsTest H bufs lhs BV.init = .ok Option.none ∧ selectC H bufs p rules BV.init draws (k + 1) names best = .ok r) ∨
        (∃ bv, lhsTest H bufs lhs BV.init = .ok (some bv) ∧ (r = some (name, rule.utility + nz) ∨
          selectC H bufs p rules BV.init draws (k + 1) names (some (name, rule.utility + nz)) = .ok r)) := by
      have key : ∀ (c : Bool), (if c = true then selectC H bufs p rules BV.init draws (k + 1) names best else
          match lhsTest H bufs lhs BV.init with
          | .error e => .error e
          | .ok Option.none => selectC H bufs p rules BV.init draws (k + 1) names best
          | .ok (some _) => if !p.subsymbolic || p.utilityNoise = 0 then .ok (some (name, rule.utility + nz))
            else selectC H bufs p rules BV.init draws (k + 1) names (some (name, rule.utility + nz))) = .ok r →
          (c = true → best ≠ Option.none) →
          (best ≠ Option.none ∧ selectC H bufs p rules BV.init draws (k + 1) names best = .ok r) ∨
        (lhsTest H bufs lhs BV.init = .ok Option.none ∧ selectC H bufs p rules BV.init draws (k + 1) names best = .ok r) ∨
        (∃ bv, lhsTest H bufs lhs BV.init = .ok (some bv) ∧ (r = some (name, rule.utility + nz) ∨
          selectC H bufs p rules BV.init draws (k + 1) names (some (name, rule.utility + nz)) = .ok r)) := by
        intro c h hc
        cases c with
        | true => exact .inl ⟨hc rfl, by simpa using h⟩
        | false =>
          right
          cases ht : lhsTest H bufs lhs BV.init with
          | error x => simp [ht] at h
          | ok m =>
            cases m with
            | none => exact .inl ⟨rfl, by simpa [ht] using h⟩
            | some bv =>
              refine .inr ⟨bv, rfl, ?_⟩
              simp only [ht, Bool.false_eq_true, if_false] at h
              split at h
              · exact .inl (by simpa using h.symm)
              · exact .inr h
      refine key _ h ?_
      cases best <;> simp
    clear h
    rcases hcase with ⟨hb, h⟩ | ⟨ht, h⟩ | ⟨bv, ht, h⟩
    · obtain ⟨h1, h2⟩ := ih _ _ _ h
      refine ⟨fun hn => ?_, fun n u hn => ?_⟩
      · exact absurd (h1 hn).1 hb
      · rcases h2 n u hn with h | ⟨h, h'⟩
        · exact .inl h
        · exact .inr ⟨.tail _ h, h'⟩
    · obtain ⟨h1, h2⟩ := ih _ _ _ h
      refine ⟨fun hn => ?_, fun n u hn => ?_⟩
      · obtain ⟨hb, ha⟩ := h1 hn
        refine ⟨hb, fun n hm => ?_⟩
        rcases List.mem_cons.1 hm with rfl | hm
        · exact ⟨rule, hr, .inl ⟨lhs, hl, ht⟩⟩
        · exact ha n hm
      · rcases h2 n u hn with h | ⟨h, h'⟩
        · exact .inl h
        · exact .inr ⟨.tail _ h, h'⟩
    · have hh : Holds H bufs rules name bv := ⟨rule, hr, .inl ⟨lhs, hl, ht⟩⟩
      rcases h with rfl | h
      · refine ⟨by simp, fun n u hn => ?_⟩
        simp only [Option.some.injEq, Prod.mk.injEq] at hn
        obtain ⟨rfl, _⟩ := hn
        exact .inr ⟨.head _, bv, hh⟩
      · obtain ⟨h1, h2⟩ := ih _ _ _ h
        refine ⟨fun hn => absurd (h1 hn).1 (by simp), fun n u hn => ?_⟩
        rcases h2 n u hn with h | ⟨h, h'⟩
        · simp only [Option.some.injEq, Prod.mk.injEq] at h
          obtain ⟨rfl, _⟩ := h
          exact .inr ⟨.head _, bv, hh⟩
        · exact .inr ⟨.tail _ h, h'⟩

/-- The result of conflict resolution in the process; nothing but the notes of the procedural module changes. -/
theorem selectIn_cases (C : Cfg) (w w' : Mach) (hbv : w.bv = BV.init) (r : Except PyErr (Option (String × CRule))) (h : selectIn C w = (w', r)) :
    w'.bufs = w.bufs ∧ w'.rules = w.rules ∧ w'.ordered = w.ordered ∧ w'.bv = w.bv ∧ w'.used = w.used ∧ w'.compile = w.compile ∧ w'.procs = w.procs ∧
    w'.lastRule = w.lastRule ∧
    (r = .ok Option.none → ∀ n ∈ w.ordered, Fails C.P.H w.faces w.rules n) ∧
    (∀ n rule, r = .ok (some (n, rule)) → n ∈ w.ordered ∧ alook n w.rules = some rule ∧ ∃ bv, Holds C.P.H w.faces w.rules n bv) := by
  unfold selectIn at h
  rw [hbv] at h
  cases hs : selectC C.P.H w.faces C.up w.rules BV.init (C.udraws w.tick) 0 w.ordered Option.none with
  | error x =>
    simp only [hs, Prod.mk.injEq] at h
    obtain ⟨rfl, rfl⟩ := h
    exact ⟨rfl, rfl, rfl, hbv ▸ rfl, rfl, rfl, rfl, rfl, by simp, by simp⟩
  | ok o =>
    obtain ⟨h1, h2⟩ := selectC_cases _ _ _ _ _ _ _ _ _ hs
    cases o with
    | none =>
      simp only [hs, Prod.mk.injEq] at h
      obtain ⟨rfl, rfl⟩ := h
      exact ⟨rfl, rfl, rfl, hbv ▸ rfl, rfl, rfl, rfl, rfl, fun _ => (h1 rfl).2, by simp⟩
    | some o =>
      obtain ⟨n, u⟩ := o
      have h2 := (h2 n u rfl).resolve_left (by simp)
      simp only [hs] at h
      cases hr : alook n w.rules with
      | none =>
        simp only [hr, Prod.mk.injEq] at h
        obtain ⟨rfl, rfl⟩ := h
        exact ⟨rfl, rfl, rfl, hbv ▸ rfl, rfl, rfl, rfl, rfl, by simp, by simp⟩
      | some rule =>
        simp only [hr, Prod.mk.injEq] at h
        obtain ⟨rfl, rfl⟩ := h
        refine ⟨rfl, rfl, rfl, hbv ▸ rfl, rfl, rfl, rfl, rfl, by simp, fun n' rule' he => ?_⟩
        simp only [Except.ok.injEq, Option.some.injEq, Prod.mk.injEq] at he
        obtain ⟨rfl, rfl⟩ := he
        exact ⟨h2.1, hr, h2.2⟩

/-! ## Tests at two moments -/

/-- The same buffers with the same attributes. -/
def SameAttrs (f g : Faces) : Prop := ∀ n, (alook n f).map (fun b => b.attrs.map Prod.fst) = (alook n g).map (fun b => b.attrs.map Prod.fst)

theorem buf_attrs_keys {b c : Buf} (h : b.cls = c.cls) : b.attrs.map Prod.fst = c.attrs.map Prod.fst := by
  unfold Buf.attrs; rw [h]; cases c.cls <;> rfl

theorem sameAttrs_of_shape : ∀ {f g : List (String × Buf)}, f.map (fun p => (p.1, p.2.cls)) = g.map (fun p => (p.1, p.2.cls)) →
    SameAttrs (f.map (fun p => (p.1, ⟨p.2.data, p.2.attrs⟩))) (g.map (fun p => (p.1, ⟨p.2.data, p.2.attrs⟩)))
  | [], [], _, _ => rfl
  | [], _ :: _, h, _ => by simp at h
  | _ :: _, [], h, _ => by simp at h
  | (a, b) :: f, (c, d) :: g, h, n => by
    simp only [List.map_cons, List.cons.injEq, Prod.mk.injEq] at h
    obtain ⟨⟨rfl, h1⟩, h2⟩ := h
    simp only [List.map_cons, alook]
    split
    · simp only [Option.map_some, Option.some.injEq]; exact buf_attrs_keys h1
    · exact sameAttrs_of_shape h2 n

theorem alook_isSome_keys {V W : Type} {a : String} : ∀ {l : List (String × V)} {m : List (String × W)}, l.map Prod.fst = m.map Prod.fst →
    (alook a l).isSome = (alook a m).isSome
  | [], [], _ => rfl
  | [], _ :: _, h => by simp at h
  | _ :: _, [], h => by simp at h
  | (b, _) :: l, (c, _) :: m, h => by
    simp only [List.map_cons, List.cons.injEq] at h
    obtain ⟨rfl, h2⟩ := h
    simp only [alook]
    split
    · rfl
    · exact alook_isSome_keys h2

theorem queryBuffer_again {b c : Option BufFace} (h : b.map (fun b => b.attrs.map Prod.fst) = c.map (fun b => b.attrs.map Prod.fst)) :
    ∀ q, queryBuffer b q = .ok true → ∃ r, queryBuffer c q = .ok r
  | [], _ => ⟨true, rfl⟩
  | (a, v) :: q, hq => by
    cases b with
    | none => simp [queryBuffer] at hq
    | some f =>
    cases c with
    | none => simp at h
    | some g =>
    simp only [Option.map_some, Option.some.injEq] at h
    simp only [queryBuffer] at hq ⊢
    split at hq
    · rename_i ha
      simp only [ha, if_true]
      split at hq
      · obtain ⟨r, hr⟩ := queryBuffer_again (b := some f) (c := some g) (by simpa using h) q hq
        rw [hr]; split_ifs <;> exact ⟨_, rfl⟩
      · simp at hq
    · rename_i ha
      simp only [ha, if_false]
      have hk := alook_isSome_keys (a := a) h
      cases hf : alook a f.attrs with
      | none => simp [hf] at hq
      | some s =>
        rw [hf] at hk
        cases hg : alook a g.attrs with
        | none => simp [hg] at hk
        | some s' =>
          simp only [hf] at hq
          split at hq
          · obtain ⟨r, hr⟩ := queryBuffer_again (b := some f) (c := some g) (by simpa using h) q hq
            simp only [hr]; split_ifs <;> exact ⟨_, rfl⟩
          · simp at hq

/-- A rule whose conditions held once does not raise when it is tested again. -/
theorem lhsTest_again {H : PyHash} {f g : Faces} (h : SameAttrs f g) : ∀ {lhs : List (Key × LVal)} {bv bv1 : BV}, lhsTest H f lhs bv = .ok (some bv1) →
    ∀ bv', ∃ r, lhsTest H g lhs bv' = .ok r
  | [], _, _, _, bv' => ⟨_, rfl⟩
  | (k, v) :: lhs, bv, bv1, ht, bv' => by
    simp only [lhsTest] at ht ⊢
    cases hc : testCond H f k v bv with
    | error x => simp [hc] at ht
    | ok m =>
    cases m with
    | none => simp [hc] at ht
    | some bv2 =>
    simp only [hc] at ht
    have hg : ∃ m, testCond H g k v bv' = .ok m := by
      unfold testCond at hc ⊢
      by_cases he : k.code = '='
      · simp only [he, if_true] at hc ⊢
        cases v with
        | chunk p => exact ⟨_, rfl⟩
        | dict d => simp at hc
      · simp only [he, if_false] at hc ⊢
        by_cases hq : k.code = '?'
        · simp only [hq, if_true] at hc ⊢
          cases v with
          | chunk p => simp at hc
          | dict d =>
            simp only at hc ⊢
            cases hb : queryBuffer (alook k.name f) d with
            | error x => simp [hb] at hc
            | ok r =>
            cases r with
            | false => simp [hb] at hc
            | true =>
            obtain ⟨r, hr⟩ := queryBuffer_again (h k.name) d hb
            rw [hr]; cases r <;> exact ⟨_, rfl⟩
        · simp [hq] at hc
    obtain ⟨m, hm⟩ := hg
    rw [hm]
    cases m with
    | none => exact ⟨_, rfl⟩
    | some bv3 => exact lhsTest_again h ht bv3

/-! ## What the actions of a rule report -/

/-- Neither a selection nor an outcome. -/
def Minor (y : YV) : Prop := ∀ e, y = .ev e → ∀ n, e.act ≠ .selected n ∧ e.act ≠ .fired n ∧ e.act ≠ .stopped n

theorem minor_ev {t : ℚ} {s : String} {a : Act} (h : ∀ n, a ≠ .selected n ∧ a ≠ .fired n ∧ a ≠ .stopped n) : Minor (.ev ⟨t, s, a⟩) := by
  intro e he n; cases he; exact h n

theorem yields_set {P : YV → Prop} (f : Mach → Mach) (w : Mach) : (GenM.set f w).Yields P := trivial
theorem yields_get {A : Type} {P : YV → Prop} (f : Mach → A) (w : Mach) : (GenM.get f w).Yields P := trivial
theorem yields_lift {A : Type} {P : YV → Prop} (x : Except PyErr A) (w : Mach) : (GenM.lift x w).Yields P := yields_act _ _

theorem minor_clear (C : Cfg) (n : String) (v : RVal) (t : ℚ) (f : Bool) (w : Mach) : (genClear C n v t f w).Yields Minor := by
  unfold genClear
  refine yields_bind (yields_set _ _) fun _ _ => yields_bind (yields_act _ _) fun _ _ => yields_bind (yields_event (minor_ev (by simp)) _) fun _ _ => yields_set _ _

theorem minor_immediate (C : Cfg) (k : Key) (v : RVal) (bv : BV) (t : ℚ) (w : Mach) : (immediate C k v bv t w).Yields Minor := by
  unfold immediate
  split_ifs
  · unfold genExtraTest
    exact yields_bind (yields_set _ _) fun _ _ => yields_bind (yields_set _ _) fun _ _ => yields_bind (yields_set _ _) fun _ _ =>
      yields_event (minor_ev (by simp)) _
  · unfold genExecute
    exact yields_bind (yields_set _ _) fun _ _ => yields_bind (yields_act _ _) fun _ _ => yields_bind (yields_set _ _) fun _ _ =>
      yields_event (minor_ev (by simp)) _
  · unfold genModify recordModify
    exact yields_bind (yields_set _ _) fun _ _ => yields_bind (yields_lift _ _) fun _ _ => yields_bind (yields_act _ _) fun _ _ =>
      yields_bind (yields_act _ _) fun _ _ => yields_bind (yields_set _ _) fun _ _ => yields_event (minor_ev (by simp)) _
  · unfold genOverwrite recordSet
    exact yields_bind (yields_set _ _) fun _ _ => yields_bind (yields_get _ _) fun _ _ => yields_bind (yields_event (minor_ev (by simp)) _) fun _ _ =>
      yields_bind (yields_lift _ _) fun _ _ => yields_bind (yields_set _ _) fun _ _ => yields_bind (yields_act _ _) fun _ _ =>
      yields_bind (yields_act _ _) fun _ _ => yields_bind (yields_set _ _) fun _ _ => yields_event (minor_ev (by simp)) _
  · exact minor_clear C _ _ _ _ _

theorem minor_updateLoop (C : Cfg) (t : ℚ) : ∀ l temp w, (updateLoop C t l temp w).Yields Minor
  | [], _, _ => trivial
  | (k, v) :: r, temp, w => by
    simp only [updateLoop]
    refine yields_bind (yields_act _ _) fun _ _ => yields_bind (yields_get _ _) fun _ _ => yields_bind (yields_set _ _) fun _ w => ?_
    split_ifs
    · exact yields_bind (yields_set _ _) fun _ _ => minor_updateLoop C t r _ _
    · exact yields_bind (minor_immediate C k v _ t _) fun _ _ => minor_updateLoop C t r _ _

theorem minor_update (C : Cfg) (rhs : List (Key × RVal)) (t : ℚ) (w : Mach) : (genUpdate C rhs t w).Yields Minor := by
  unfold genUpdate
  exact yields_bind (yields_get _ _) fun _ _ => yields_bind (yields_lift _ _) fun _ _ => yields_bind (minor_updateLoop _ _ _ _ _) fun _ _ => yields_set _ _

theorem minor_not {x : Mach × YV} (h : Minor x.2) : ¬ IsOutcome x ∧ ¬ IsSelection x := by
  refine ⟨?_, ?_⟩
  · rintro ⟨e, n, he, ha | ha⟩
    · exact (h e he n).2.1 ha
    · exact (h e he n).2.2 ha
  · rintro ⟨e, n, he, ha⟩
    exact (h e he n).1 ha

theorem minor_rhs (C : Cfg) (n : String) (rule : CRule) (t : ℚ) (w : Mach) : (genRhs C n rule t w).Yields Minor := by
  unfold genRhs
  exact yields_bind (yields_lift _ _) fun _ _ => yields_bind (minor_update _ _ _ _) fun _ _ => yields_set _ _

/-! ## Firing -/

theorem rewardStep_same (C : Cfg) (n : String) (q : ℚ) (w : Mach) : (rewardStep C n q w).bufs = w.bufs ∧ (rewardStep C n q w).bv = w.bv ∧
    (rewardStep C n q w).compile = w.compile ∧ (rewardStep C n q w).procs = w.procs := by
  unfold rewardStep
  split
  · split <;> exact ⟨rfl, rfl, rfl, rfl⟩
  · exact ⟨rfl, rfl, rfl, rfl⟩

theorem compileIn_same (C : Cfg) (w : Mach) : (compileIn C w).1.bufs = w.bufs ∧ (compileIn C w).1.bv = w.bv ∧ (compileIn C w).1.procs = w.procs ∧
    (∀ x, (compileIn C w).2 = .error x → C.compilation = true ∧ w.compile ≠ Option.none) := by
  unfold compileIn
  split
  · rename_i h1 h2
    rw [h2]
    dsimp only
    split <;> refine ⟨rfl, rfl, rfl, ?_⟩ <;> simp [h1]
  · refine ⟨rfl, rfl, rfl, ?_⟩; simp

theorem fire_cases (C : Cfg) (n : String) (rule : CRule) (q : ℚ) (w : Mach) :
    (∃ w2 x, genFire C n rule q w = .raise w2 x ∧ w2.bufs = w.bufs ∧ C.compilation = true ∧ w.compile ≠ Option.none) ∨
    (∃ w3, w3.bufs = w.bufs ∧ w3.bv = w.bv ∧ genFire C n rule q w = .yield w3 (.ev ⟨round4 q, procName, .fired n⟩) (genRhs C n rule q)) ∨
    (∃ w2 re m, w2.bufs = w.bufs ∧ w2.bv = w.bv ∧ genFire C n rule q w = .yield w2 (.ev ⟨round4 q, procName, .compiled re m⟩)
      (fun w4 => .yield { w4 with curSlots := w4.noSlots } (.ev ⟨round4 q, procName, .fired n⟩) (genRhs C n rule q))) := by
  obtain ⟨a1, a2, a3, _⟩ := rewardStep_same C n q w
  obtain ⟨b1, b2, _, b3⟩ := compileIn_same C (rewardStep C n q w)
  unfold genFire
  simp only [genM_bind_apply, genM_set_apply, out_bind_ret]
  rcases hc : compileIn C (rewardStep C n q w) with ⟨w2, x | o⟩
  · rw [hc] at b1 b3
    rw [genM_act_error hc]
    exact .inl ⟨w2, x, rfl, b1.trans a1, (b3 x rfl).1, a3 ▸ (b3 x rfl).2⟩
  · rw [hc] at b1 b2
    rw [genM_act_ok hc]
    cases o with
    | none => exact .inr (.inl ⟨{ w2 with compile := Option.none, curSlots := w2.noSlots }, b1.trans a1, b2.trans a2, rfl⟩)
    | some o => exact .inr (.inr ⟨{ w2 with compile := Option.none }, o.2, o.1, b1.trans a1, b2.trans a2, rfl⟩)

/-- The bindings are those of the procedural module. -/
theorem faces_of_bufs {w w' : Mach} (h : w'.bufs = w.bufs) : w'.faces = w.faces := by unfold Mach.faces; rw [h]

theorem reports_ev (w : Mach) (q : ℚ) (a : Act) : Reports q a (w, .ev ⟨round4 q, procName, a⟩) := ⟨_, rfl, rfl, round4_isRounded q, rfl⟩

/-- From the time of firing on. -/
theorem test_runs {Rel : Mach → Mach → Prop} (hrel : ∀ a b, Rel a b → Private a b) (C : Cfg) (n : String) (rule : CRule) (lhs : List (Key × LVal)) (q : ℚ)
    (w : Mach) (hl : rule.body.lhs = .ok lhs) (hbv : w.bv = BV.init) (rules : CRules) (hr : alook n rules = some rule)
    (r : Option BV) (ht : lhsTest C.P.H w.faces lhs BV.init = .ok r) (s : Mach) (hs : s.rules = rules) (hcs : w.compile = s.compile)
    {l : List (Mach × YV)} {e : GEnd Mach Unit} (h : Runs Rel (genTest C n rule q w) l e) :
    (∃ w' err, e = .raise w' err ∧ l = [] ∧ (∃ bv, Holds C.P.H w'.faces s.rules n bv) ∧ C.compilation = true ∧ s.compile ≠ Option.none) ∨
    (e = .cut ∧ ∃ c0 re m, l = [c0] ∧ Reports q (.compiled re m) c0) ∨ OneOutcome C q n s l := by
  unfold genTest at h
  simp only [genM_bind_apply, hl, genM_lift_ok, out_bind_ret] at h
  rw [genM_act_ok (w' := w) (a := r) (by rw [hbv, ht])] at h
  simp only [out_bind_ret] at h
  cases r with
  | none =>
    right; right
    simp only [genM_event_apply] at h
    have hf : Fails C.P.H w.faces s.rules n := ⟨rule, hs ▸ hr, .inl ⟨lhs, hl, ht⟩⟩
    have hl2 : l = [(w, .ev ⟨round4 q, procName, .stopped n⟩)] := by
      cases h with
      | cut => rfl
      | yield _ h => cases h; rfl
    subst hl2
    exact ⟨[], _, [], _, rfl, by simp, ⟨[], rfl⟩, .inr ⟨hf, reports_ev w q _, rfl⟩⟩
  | some bv =>
    simp only [genM_bind_apply, genM_set_apply, out_bind_ret] at h
    have hh : Holds C.P.H w.faces s.rules n bv := ⟨rule, hs ▸ hr, .inl ⟨lhs, hl, ht⟩⟩
    rcases fire_cases C n rule q { w with bv := bv } with ⟨w2, x, he, hb, hc1, hc2⟩ | ⟨w3, hb, hv, he⟩ | ⟨w2, re, m, hb, hv, he⟩
    · rw [he] at h
      cases h
      exact .inl ⟨w2, x, rfl, rfl, ⟨bv, faces_of_bufs (w := w) hb ▸ hh⟩, hc1, hcs ▸ hc2⟩
    · rw [he] at h
      right; right
      cases h with
      | cut => exact ⟨[], _, [], _, rfl, by simp, ⟨[], rfl⟩, .inl ⟨bv, faces_of_bufs (w := w) hb ▸ hh, reports_ev _ q _, hv, by simp⟩⟩
      | yield hw h =>
        exact ⟨[], _, _, _, rfl, fun x hx => minor_not (runs_yields h (minor_rhs _ _ _ _ _) x (by simpa using hx)), ⟨[], rfl⟩,
          .inl ⟨bv, faces_of_bufs (w := w) hb ▸ hh, reports_ev _ q _, hv, by simp⟩⟩
    · rw [he] at h
      right
      cases h with
      | cut => exact .inl ⟨rfl, _, re, m, rfl, reports_ev _ q _⟩
      | yield hw h =>
        right
        have hm : Minor (.ev ⟨round4 q, procName, .compiled re m⟩) := minor_ev (by simp)
        have hv2 := (hrel _ _ hw).bv.trans hv
        cases h with
        | cut =>
          exact ⟨[_], _, [], _, rfl, fun x hx => by
            simp only [List.append_nil, List.mem_singleton] at hx; subst hx; exact minor_not hm, ⟨[_], rfl⟩,
            .inl ⟨bv, faces_of_bufs (w := w) hb ▸ hh, reports_ev _ q _, hv2, fun x hx => by
              simp only [List.mem_singleton] at hx; subst hx; exact ⟨re, m, reports_ev _ q _⟩⟩⟩
        | yield hw' h =>
          exact ⟨[_], _, _, _, rfl, fun x hx => by
            rcases List.mem_append.1 hx with hx | hx
            · simp only [List.mem_singleton] at hx; subst hx; exact minor_not hm
            · exact minor_not (runs_yields h (minor_rhs _ _ _ _ _) x hx), ⟨[_], rfl⟩,
            .inl ⟨bv, faces_of_bufs (w := w) hb ▸ hh, reports_ev _ q _, hv2, fun x hx => by
              simp only [List.mem_singleton] at hx; subst hx; exact ⟨re, m, reports_ev _ q _⟩⟩⟩

theorem oneOutcome_append {C : Cfg} {q : ℚ} {n : String} {s : Mach} {l l2 : List (Mach × YV)} (h : OneOutcome C q n s l)
    (h2 : ∀ x ∈ l2, Minor x.2) : OneOutcome C q n s (l ++ l2) := by
  obtain ⟨mid, o, rest, v, rfl, ha, hv, ho⟩ := h
  refine ⟨mid, o, rest ++ l2, v, by simp, fun x hx => ?_, hv, ho⟩
  rw [← List.append_assoc] at hx
  rcases List.mem_append.1 hx with hx | hx
  · exact ha x hx
  · exact minor_not (h2 x hx)

/-! ## The process -/

/-- What follows conflict resolution. -/
def afterConflict (C : Cfg) (t : ℚ) (w : Mach) : Out Mach YV Unit :=
  (GenM.act (selectIn C) w).bind (fun sel w => match sel with
    | Option.none => .yield { w with procs := removeProcedural w.procs } (.ev ⟨round4 t, procName, .noRule⟩) (fun w => .yield w .procs (fun w => .ret w ()))
    | some (n, rule) => .yield { w with used := noteUse n t w.used } (.ev ⟨round4 t, procName, .selected n⟩) (fun w =>
        .yield w (.ev ⟨round4 (t + C.ruleFiring), procName, .unknown⟩) (fun w =>
          (genTest C n rule (t + C.ruleFiring) w).bind (fun _ => GenM.yield .procs))))

theorem genProcedural_eq (C : Cfg) (t : ℚ) (w : Mach) : genProcedural C t w =
    .yield { w with procs := w.procs ++ [.procedural], bv := BV.init } (.ev ⟨round4 t, procName, .conflict⟩) (afterConflict C t) := by
  unfold genProcedural afterConflict genSelected
  simp only [genM_bind_apply, genM_set_apply, out_bind_ret, genM_event_apply, out_bind_yield]
  congr 1
  funext w'
  congr 1
  funext sel w2
  cases sel with
  | none => rfl
  | some p => rfl

theorem private_trans {a b c : Mach} (h1 : Private a b) (h2 : Private b c) : Private a c :=
  ⟨h2.shape.trans h1.shape, h2.bv.trans h1.bv, h2.rules.trans h1.rules, h2.ordered.trans h1.ordered, h2.used.trans h1.used,
    h2.usedName.trans h1.usedName, h2.lastRule.trans h1.lastRule, h2.compile.trans h1.compile⟩

/-- One run of the process of the procedural module that begins with conflict resolution at time `t`. -/
def CycleOutcome (C : Cfg) (t : ℚ) (l : List (Mach × YV)) : Prop :=
  NothingFound C t l ∨ ∃ n s l', Selected C t l n s l' ∧ OneOutcome C (t + C.ruleFiring) n s l'

/-- The whole of C30: a run that is not broken off from outside ends in conflict resolution with an exception, or nothing is found,
or there is a selection with one outcome. Between two steps of the process others may change all but what is private to it. -/
def C30_full : Prop := ∀ (C : Cfg) (t : ℚ) (w : Mach) (l : List (Mach × YV)) (e : GEnd Mach Unit), Runs Private (genProcedural C t w) l e →
  e ≠ .cut → (∃ x w' err, l = [x] ∧ Reports t .conflict x ∧ e = .raise w' err) ∨ CycleOutcome C t l

/-- C30 for all runs, also those that are broken off. Missing: when the compilation of the two rules used before raises an exception,
the selected rule has no outcome at all (`C30_refuted`). -/
theorem C30_partial (C : Cfg) (t : ℚ) (w : Mach) (l : List (Mach × YV)) (e : GEnd Mach Unit) (hr : Runs Private (genProcedural C t w) l e) :
    (∃ x, l = [x] ∧ Reports t .conflict x ∧ (e = .cut ∨ ∃ w' err, e = .raise w' err)) ∨ CycleOutcome C t l ∨ ∃ n s, Unfinished C t l e n s := by
  rw [genProcedural_eq] at hr
  cases hr with
  | cut => exact .inl ⟨_, rfl, reports_ev _ _ _, .inl rfl⟩
  | @yield _ w1 _ _ l e hw hr =>
  have hbv1 : w1.bv = BV.init := hw.bv
  unfold afterConflict at hr
  rcases hsel : selectIn C w1 with ⟨w2, x | sel⟩
  · rw [genM_act_error hsel] at hr
    cases hr
    exact .inl ⟨_, rfl, reports_ev _ _ _, .inr ⟨_, _, rfl⟩⟩
  rw [genM_act_ok hsel] at hr
  obtain ⟨hb, hru, ho, hbv, hu, hc, hp, hlr, hnone, hsome⟩ := selectIn_cases C w1 w2 hbv1 _ hsel
  right
  cases sel with
  | none =>
    left; left
    simp only [out_bind_ret] at hr
    have hfail : ∀ n ∈ w2.ordered, Fails C.P.H w2.faces w2.rules n := by
      rw [faces_of_bufs hb, hru, ho]; exact hnone rfl
    cases hr with
    | cut => exact ⟨_, _, [], rfl, reports_ev _ _ _, reports_ev _ _ _, .inl rfl, hfail⟩
    | yield _ hr =>
      cases hr with
      | cut => exact ⟨_, _, _, rfl, reports_ev _ _ _, reports_ev _ _ _, .inr ⟨_, rfl⟩, hfail⟩
      | yield _ hr =>
        cases hr
        exact ⟨_, _, _, rfl, reports_ev _ _ _, reports_ev _ _ _, .inr ⟨_, rfl⟩, hfail⟩
  | some p =>
    obtain ⟨n, rule⟩ := p
    obtain ⟨hn, hrule, bv, hh⟩ := hsome n rule rfl
    simp only [out_bind_ret] at hr
    have hh2 : ∃ bv, Holds C.P.H w2.faces w2.rules n bv := ⟨bv, by rw [faces_of_bufs hb, hru]; exact hh⟩
    have hn2 : n ∈ w2.ordered := ho ▸ hn
    obtain ⟨rule', hr', ⟨lhs, hl, ht⟩ | ⟨x, _, hx⟩⟩ := hh
    swap
    · cases hx
    rw [hrule] at hr'
    cases hr'
    cases hr with
    | cut => exact .inr ⟨n, _, _, _, [], rfl, reports_ev _ _ _, reports_ev _ _ _, rfl, hn2, hh2, .inl ⟨rfl, .inl rfl⟩⟩
    | @yield _ w3 _ _ l e hw3 hr =>
    cases hr with
    | cut => exact .inr ⟨n, _, _, _, _, rfl, reports_ev _ _ _, reports_ev _ _ _, rfl, hn2, hh2, .inl ⟨rfl, .inr ⟨_, [], rfl, reports_ev _ _ _, .inl rfl⟩⟩⟩
    | @yield _ w4 _ _ l e hw4 hr =>
    have hp4 := private_trans hw3 hw4
    have hbv4 : w4.bv = BV.init := hp4.bv.trans (hbv.trans hbv1)
    have hrul4 : alook n w2.rules = some rule := by rw [hru]; exact hrule
    have hsh : SameAttrs w1.faces w4.faces := sameAttrs_of_shape (by rw [hp4.shape]; simp only [hb])
    obtain ⟨r, ht4⟩ := lhsTest_again hsh ht BV.init
    have key := @test_runs Private (fun _ _ h => h) C n rule lhs (t + C.ruleFiring) w4 hl hbv4 w2.rules hrul4 r ht4
      { w2 with used := noteUse n t w2.used } rfl hp4.compile
    rcases runs_bind hr with ⟨w5, _, l1, l2, h1, h2, rfl⟩ | ⟨w5, x, h1, rfl⟩ | ⟨h1, rfl⟩
    · rcases key h1 with ⟨_, _, h, _⟩ | ⟨h, _⟩ | h
      · cases h
      · cases h
      · refine .inl (.inr ⟨n, _, l1 ++ l2, ⟨_, _, _, rfl, reports_ev _ _ _, reports_ev _ _ _, reports_ev _ _ _, rfl, hn2, hh2⟩, oneOutcome_append h ?_⟩)
        have hm : Minor .procs := fun e he => by cases he
        exact runs_yields h2 ⟨hm, fun _ => trivial⟩
    · rcases key h1 with ⟨w', err, h, rfl, hho, hco⟩ | ⟨h, _⟩ | h
      · exact .inr ⟨n, _, _, _, _, rfl, reports_ev _ _ _, reports_ev _ _ _, rfl, hn2, hh2, .inr ⟨w', err, _, h ▸ rfl, rfl, reports_ev _ _ _, hho, hco⟩⟩
      · cases h
      · exact .inl (.inr ⟨n, _, l, ⟨_, _, _, rfl, reports_ev _ _ _, reports_ev _ _ _, reports_ev _ _ _, rfl, hn2, hh2⟩, h⟩)
    · rcases key h1 with ⟨_, _, h, _⟩ | ⟨_, c0, re, m, rfl, hcm⟩ | h
      · cases h
      · exact .inr ⟨n, _, _, _, _, rfl, reports_ev _ _ _, reports_ev _ _ _, rfl, hn2, hh2,
          .inl ⟨rfl, .inr ⟨_, _, rfl, reports_ev _ _ _, .inr ⟨c0, re, m, rfl, hcm⟩⟩⟩⟩
      · exact .inl (.inr ⟨n, _, l, ⟨_, _, _, rfl, reports_ev _ _ _, reports_ev _ _ _, reports_ev _ _ _, rfl, hn2, hh2⟩, h⟩)

/-- C30 without production compilation. -/
theorem C30_uncompiled (C : Cfg) (hc : C.compilation = false) (t : ℚ) (w : Mach) (l : List (Mach × YV)) (e : GEnd Mach Unit)
    (hr : Runs Private (genProcedural C t w) l e) (he : e ≠ .cut) :
    (∃ x w' err, l = [x] ∧ Reports t .conflict x ∧ e = .raise w' err) ∨ CycleOutcome C t l := by
  rcases C30_partial C t w l e hr with ⟨x, rfl, hx, h | ⟨w', err, h⟩⟩ | h | ⟨n, s, x, y, u, _, _, _, _, _, _, ⟨h, _⟩ | ⟨_, _, _, _, _, _, _, h, _⟩⟩
  · exact absurd h he
  · exact .inl ⟨x, w', err, rfl, hx, h⟩
  · exact .inr h
  · exact absurd h he
  · rw [hc] at h; cases h

theorem private_refl (w : Mach) : Private w w := ⟨rfl, rfl, rfl, rfl, rfl, rfl, rfl, rfl⟩

/-- The buffers of the examples; the goal is `g`. -/
def exCycBufs (g : List Chunk) : List (String × Buf) :=
  [("g", { exBuf .goal with data := g }), ("retrieval", exBuf .decmem), ("manual", exBuf .motor), ("visual", exBuf .visual)]

/-- Two rules, of which the second one can fire; they have been used one after the other and are about to be compiled. -/
def exCompiling : Mach := { exMach exCompReg (exCycBufs [exGoal (exLit "a")]) with
                            rules := exTwo exRetrieve exFailed,
                            ordered := ["r2", "r1"],
                            compile := some ("r1", "r2", [("g", .nothing), ("retrieval", .retr [("state", .vv (exLit "b"))] Option.none)]) }

/-- C30 is false: compiling the two rules that were used before raises a TypeError (see `C48_refuted`) after the selection, and the
selected rule neither fires nor is stopped. -/
theorem C30_refuted : ¬ C30_full := by
  obtain ⟨H, _⟩ := exists_collisionFree
  intro h
  let C : Cfg := { exCfg (exPy H) with compilation := true, up := exCompParams }
  have hr := runs_solo private_refl (genProcedural C 0 exCompiling)
  have ha : ((genProcedural C 0 exCompiling).solo.1).map (fun x => match x.2 with | .ev e => some e.act | _ => Option.none) =
      [some .conflict, some (.selected "r2"), some .unknown] := rfl
  have he : ∃ w', (genProcedural C 0 exCompiling).solo.2 = .raise w' .type := ⟨_, rfl⟩
  obtain ⟨w', he⟩ := he
  rw [he] at hr
  generalize (genProcedural C 0 exCompiling).solo.1 = l at ha hr
  rcases h C 0 exCompiling _ _ hr (by simp) with ⟨x, _, _, rfl, _⟩ | ⟨x, y, z, rfl, _, hy, _⟩ | ⟨n, s, l', ⟨x, y, u, rfl, _⟩, mid, o, rest, v, rfl, _⟩
  · simp at ha
  · obtain ⟨e, he, _, _, hac⟩ := hy
    simp [he, hac] at ha
  · simp at ha

/-- If nothing in the buffers changes between selection and firing, and rules are not compiled, the selected rule fires, with the
bindings found when it was selected. -/
theorem C30_unchanged (C : Cfg) (hc : C.compilation = false) (t : ℚ) (w : Mach) (l : List (Mach × YV)) (e : GEnd Mach Unit)
    (hr : Runs Still (genProcedural C t w) l e) (he : e ≠ .cut) (hs : ∃ x ∈ l, IsSelection x) :
    ∃ n s o rest bv, Selected C t l n s (o :: rest) ∧ Holds C.P.H s.faces s.rules n bv ∧ Reports (t + C.ruleFiring) (.fired n) o ∧ o.1.bv = bv := by
  rw [genProcedural_eq] at hr
  cases hr with
  | cut => exact absurd rfl he
  | @yield _ w1 _ _ l e hw hr =>
  have hbv1 : w1.bv = BV.init := hw.priv.bv
  unfold afterConflict at hr
  rcases hsel : selectIn C w1 with ⟨w2, x | sel⟩
  · rw [genM_act_error hsel] at hr
    cases hr
    obtain ⟨x, hx, e, n, he, ha⟩ := hs
    simp only [List.mem_singleton] at hx
    subst hx; cases he; cases ha
  rw [genM_act_ok hsel] at hr
  obtain ⟨hb, hru, ho, hbv, hu, hcm, hp, hlr, hnone, hsome⟩ := selectIn_cases C w1 w2 hbv1 _ hsel
  cases sel with
  | none =>
    simp only [out_bind_ret] at hr
    exfalso
    obtain ⟨x, hx, e, n, he', ha⟩ := hs
    cases hr with
    | cut => exact absurd rfl he
    | yield _ hr =>
      cases hr with
      | cut => exact absurd rfl he
      | yield _ hr =>
        cases hr
        simp only [List.mem_cons, List.not_mem_nil, or_false] at hx
        rcases hx with rfl | rfl | rfl <;> cases he' <;> cases ha
  | some p =>
    obtain ⟨n, rule⟩ := p
    obtain ⟨hn, hrule, bv, hh⟩ := hsome n rule rfl
    simp only [out_bind_ret] at hr
    have hh2 : Holds C.P.H w2.faces w2.rules n bv := by rw [faces_of_bufs hb, hru]; exact hh
    have hn2 : n ∈ w2.ordered := ho ▸ hn
    obtain ⟨rule', hr', ⟨lhs, hl, ht⟩ | ⟨x, _, hx⟩⟩ := hh
    swap
    · cases hx
    rw [hrule] at hr'
    cases hr'
    cases hr with
    | cut => exact absurd rfl he
    | @yield _ w3 _ _ l e hw3 hr =>
    cases hr with
    | cut => exact absurd rfl he
    | @yield _ w4 _ _ l e hw4 hr =>
    have hbv4 : w4.bv = BV.init := hw4.priv.bv.trans (hw3.priv.bv.trans (hbv.trans hbv1))
    have hf4 : w4.faces = w1.faces := hw4.faces.trans (hw3.faces.trans (faces_of_bufs (w := w1) hb))
    have hout : ∃ w5, w5.bv = bv ∧ genTest C n rule (t + C.ruleFiring) w4 =
        .yield w5 (.ev ⟨round4 (t + C.ruleFiring), procName, .fired n⟩) (genRhs C n rule (t + C.ruleFiring)) := by
      unfold genTest
      simp only [genM_bind_apply, hl, genM_lift_ok, out_bind_ret]
      rw [genM_act_ok (w' := w4) (a := some bv) (by rw [hbv4, hf4, ht])]
      simp only [out_bind_ret, genM_bind_apply, genM_set_apply]
      rcases fire_cases C n rule (t + C.ruleFiring) { w4 with bv := bv } with ⟨_, _, _, _, h, _⟩ | ⟨w3, _, hv, he⟩ | ⟨w2, re, m, _, hv, he⟩
      · rw [hc] at h; cases h
      · exact ⟨w3, hv, he⟩
      · exfalso
        unfold genFire at he
        simp only [genM_bind_apply, genM_set_apply, out_bind_ret] at he
        rw [genM_act_ok (f := compileIn C) (a := Option.none) (w' := rewardStep C n (t + C.ruleFiring) { w4 with bv := bv })
          (by simp [compileIn, hc])] at he
        simp at he
    obtain ⟨w5, hv5, hout⟩ := hout
    dsimp only at hr
    rw [hout, out_bind_yield] at hr
    have hl' : ∃ rest, l = (w5, .ev ⟨round4 (t + C.ruleFiring), procName, .fired n⟩) :: rest := by
      cases hr with
      | cut => exact ⟨[], rfl⟩
      | yield _ _ => exact ⟨_, rfl⟩
    obtain ⟨rest, rfl⟩ := hl'
    exact ⟨n, _, _, rest, bv, ⟨_, _, _, rfl, reports_ev _ _ _, reports_ev _ _ _, reports_ev _ _ _, rfl, hn2, bv, hh2⟩, hh2, reports_ev _ _ _, hv5⟩

/-- What it means that the conditions of a rule hold (partial: under the restrictions of C28). -/
theorem C30_meaning_partial {H : PyHash} (cf : H.CollisionFree) {D : Val → Prop} (hD : Domain D) (bufs : Faces) (rules : CRules) (n : String)
    (rule : CRule) (lhs : List (Key × LVal)) (hr : alook n rules = some rule) (hl : rule.body.lhs = .ok lhs) (hB : GoodBuffers D bufs lhs)
    (hP : GoodPatterns lhs) (hS : SafeNames lhs) :
    ((∃ bv, Holds H bufs rules n bv) ↔ ∃ σ, RuleHolds D bufs lhs σ) ∧ ∀ bv, Holds H bufs rules n bv → RuleHolds D bufs lhs bv.get := by
  have key : ∀ bv, Holds H bufs rules n bv ↔ lhsTest H bufs lhs BV.init = .ok (some bv) := by
    intro bv
    constructor
    · rintro ⟨rule', hr', ⟨lhs', hl', ht⟩ | ⟨x, _, hx⟩⟩
      · rw [hr] at hr'; cases hr'
        rw [hl] at hl'; cases hl'
        exact ht
      · cases hx
    · exact fun h => ⟨rule, hr, .inl ⟨lhs, hl, h⟩⟩
  obtain ⟨h1, h2⟩ := C28_partial cf hD bufs lhs hB hP hS
  refine ⟨Iff.trans ⟨fun ⟨bv, h⟩ => ⟨bv, (key bv).1 h⟩, fun ⟨bv, h⟩ => ⟨bv, (key bv).2 h⟩⟩ h1, fun bv h => (h2 bv ((key bv).1 h)).1⟩

/-! ## Examples -/

/-- The second of the two rules can fire. -/
def exCycle : Mach := { exCompiling with compile := Option.none }

/-- The actions reported. -/
def actsOf (l : List (Mach × YV)) : List (Option Act) := l.map (fun x => match x.2 with | .ev e => some e.act | _ => Option.none)

theorem still_refl (w : Mach) : Still w w := ⟨private_refl w, rfl⟩

/-- C30, an instance: the second rule is selected and fires. -/
example (H : PyHash) : ∃ l e, Runs Still (genProcedural (exCfg (exPy H)) 0 exCycle) l e ∧ e ≠ .cut ∧
    (actsOf l).take 4 = [some .conflict, some (.selected "r2"), some .unknown, some (.fired "r2")] :=
  ⟨_, _, runs_solo still_refl _, under_ne_cut _ _ _, rfl⟩

/-- A chunk arrives in the retrieval buffer. -/
def exArrives (w : Mach) : Mach := w.upd "retrieval" (fun b => { b with data := [exGoal (exLit "b")] })

theorem upd_shape (w : Mach) (n : String) (f : Buf → Buf) (h : ∀ b, (f b).cls = b.cls) :
    (w.upd n f).bufs.map (fun p => (p.1, p.2.cls)) = w.bufs.map (fun p => (p.1, p.2.cls)) := by
  unfold Mach.upd
  split
  · rename_i b hb
    simp only
    generalize w.bufs = l at hb
    induction l with
    | nil => simp [alook] at hb
    | cons p l ih =>
      obtain ⟨a, c⟩ := p
      simp only [alook] at hb
      simp only [aset]
      split
      · rename_i he
        simp only [he, if_true, Option.some.injEq] at hb
        subst hb
        simp [h, he]
      · rename_i he
        simp only [he, if_false] at hb
        simp [ih hb]
  · rfl

theorem exArrives_private (w : Mach) : Private w (exArrives w) := by
  refine ⟨upd_shape w _ _ (fun _ => rfl), ?_, ?_, ?_, ?_, ?_, ?_, ?_⟩ <;> (unfold exArrives; rw [upd_eq])

/-- C30, an instance: a chunk arrives after the selection and the rule is stopped. -/
example (H : PyHash) : ∃ l e, Runs Private (genProcedural (exCfg (exPy H)) 0 exCycle) l e ∧ e ≠ .cut ∧
    actsOf l = [some .conflict, some (.selected "r2"), some .unknown, some (.stopped "r2"), Option.none] :=
  ⟨_, _, runs_under (f := fun i w => if i = 1 then exArrives w else w) (fun i w => by
    split
    · exact exArrives_private w
    · exact private_refl w) _ 0, under_ne_cut _ _ _, rfl⟩

/-- C30, an instance: nothing is found. -/
example (H : PyHash) : ∃ l e, Runs Private (genProcedural (exCfg (exPy H)) 0 { exArrives exCycle with ordered := ["r2"] }) l e ∧ e ≠ .cut ∧
    actsOf l = [some .conflict, some .noRule, Option.none] :=
  ⟨_, _, runs_solo private_refl _, under_ne_cut _ _ _, rfl⟩

end Verif.Props
