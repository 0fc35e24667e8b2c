import Verif.Lemmas.Converse
import Verif.Props.Sequence
/-! # Property C69: a compiled rule can fire wherever its two rules can fire one after the other -/
namespace Verif.Props
open Verif Verif.Spec

/-- The whole of C69: two rules that test, query and modify buffers are compiled with what is known after the first one. Whenever the
first rule can fire and then the second one, the compiled rule can fire instead, with the same result. -/
def C69_full : Prop := ∀ (P : Py) (reg : Reg) (name2 : String) (l1 l2 lhs : List (Key × LVal)) (r1 r2 rhs : List (Key × RVal))
  (sv : SlotVals) (bufs : List (String × CBuf)) (faces faces' faces'' : Faces),
  RegularPair P reg l1 r1 l2 r2 sv DataVal faces → ModifyingRule reg l1 r1 → ModifyingRule reg l2 r2 → Recorded l1 r1 sv →
  Furnished l1 r1 l2 r2 faces →
  newRule P reg name2 ⟨.ok l1, .ok r1⟩ ⟨.ok l2, .ok r2⟩ sv bufs = .ok (some ⟨.ok lhs, .ok rhs⟩) →
  Fires DataVal l1 r1 faces faces' → Fires DataVal l2 r2 faces' faces'' → Fires DataVal lhs rhs faces faces''

/-- C69 (partial): for rules that a compiled rule can replace. Missing: rules of which the second one tests a slot that the first one
sets without testing it (`C69_refuted`), buffers named like variables, variables of the first rule that look like renamed ones,
negations in tests of slots that neither rule sets in a buffer that both modify, and modifications of a buffer with chunks of which
the second lacks slots of the first. -/
theorem C69_partial (P : Py) (reg : Reg) (name2 : String) (l1 l2 lhs : List (Key × LVal)) (r1 r2 rhs : List (Key × RVal))
    (sv : SlotVals) (bufs : List (String × CBuf)) (faces faces' faces'' : Faces)
    (h : RegularPair P reg l1 r1 l2 r2 sv DataVal faces) (hm1 : ModifyingRule reg l1 r1) (hm2 : ModifyingRule reg l2 r2)
    (hk : Recorded l1 r1 sv) (hf : Furnished l1 r1 l2 r2 faces) (hR : Replaceable name2 l1 r1 l2 r2 sv)
    (hn : newRule P reg name2 ⟨.ok l1, .ok r1⟩ ⟨.ok l2, .ok r2⟩ sv bufs = .ok (some ⟨.ok lhs, .ok rhs⟩))
    (hfire1 : Fires DataVal l1 r1 faces faces') (hfire2 : Fires DataVal l2 r2 faces' faces'') : Fires DataVal lhs rhs faces faces'' := by
  obtain ⟨C⟩ := newRule_compiling hn
  obtain ⟨σ1, hH1, hM1⟩ := hfire1
  obtain ⟨σ2, hH2, hM2⟩ := hfire2
  have S : RulesInRow P reg l1 r1 l2 r2 name2 sv faces faces' σ1 σ2 := ⟨h.cf, h.types, h.dict1, h.dict2, h.good1, h.good2, h.queries1,
    h.queries2, h.names1, h.names2, h.data, h.patterns1, h.patterns2, h.buffers1, h.buffers2, hm1, hm2, hk, hf, hR, hH1, hM1, hH2⟩
  exact S.fires C ((newRule_dict h.dict1 h.dict2 hn).rhs _ rfl).1 hM2

/-! ## Examples and refutations -/

theorem exTestOf_says {σ : String → Option Val} {n : String} {a : VarVal} {s t : String}
    (h : n = "g" ∧ ExSays σ a s ∨ n = "h" ∧ ExSays σ a t) :
    ∀ p ∈ exTestOf n a, (∃ x, p = ((⟨'=', "g"⟩ : Key), LVal.chunk (exGoal x)) ∧ ExSays σ x s) ∨
      ∃ x, p = ((⟨'=', "h"⟩ : Key), LVal.chunk (exGoal x)) ∧ ExSays σ x t := by
  intro p hp
  simp only [exTestOf, List.mem_cons, List.not_mem_nil, or_false] at hp
  subst hp
  rcases h with ⟨rfl, h⟩ | ⟨rfl, h⟩
  · exact Or.inl ⟨a, rfl, h⟩
  · exact Or.inr ⟨a, rfl, h⟩

/-- The assignment for the two buffers, with a value for the variable of the second rule. -/
def exAssign2 (s t y : String) : String → Option Val := fun v => if v = "y" then some (.str y) else exAssign s t "" "" v

theorem exAssign2_data (s t y : String) : ∀ n v, exAssign2 s t y n = some v → DataVal v := by
  intro n v hv
  simp only [exAssign2] at hv
  split at hv
  · cases hv; exact ⟨by simp [PlainVal], by simp⟩
  · exact exAssign_data _ _ _ _ n v hv

/-- The two rules that copy values fire one after the other. -/
theorem exCopies_fire {l1 : List (Key × LVal)} {s t : String}
    (hl : ∀ p ∈ l1, (∃ x, p = ((⟨'=', "g"⟩ : Key), LVal.chunk (exGoal x)) ∧ ExSays (exAssign s t s "") x s) ∨
      ∃ x, p = ((⟨'=', "h"⟩ : Key), LVal.chunk (exGoal x)) ∧ ExSays (exAssign s t s "") x t) :
    Fires DataVal l1 (exPutIn "h" (exVar "x")) (exTwoFaces s t) (exTwoFaces s s) ∧
    Fires DataVal (exTestOf "h" (exVar "y")) (exPutIn "g" (exVar "y")) (exTwoFaces s s) (exTwoFaces s s) := by
  refine ⟨⟨exAssign s t s "", exTwo_holds (exAssign_data _ _ _ _) rfl rfl hl, exTwo_modified (fun b c hm => ?_) (by simp) (by simp [exPutIn])⟩,
    ⟨exAssign2 s s s, exTwo_holds (exAssign2_data _ _ _) rfl rfl (exTestOf_says (Or.inr ⟨rfl, Or.inr ⟨"y", by decide, rfl, rfl⟩⟩)),
      exTwo_modified (fun b c hm => ?_) (by simp) (by simp)⟩⟩
  · simp [exPutIn] at hm
    exact Or.inr ⟨hm.1, _, hm.2, Or.inr ⟨"x", by decide, rfl, rfl⟩⟩
  · simp [exPutIn] at hm
    exact Or.inl ⟨hm.1, _, hm.2, Or.inr ⟨"y", by decide, rfl, rfl⟩⟩

/-- C69 is false: the first rule copies the value of `g` to `h`, the second one copies that of `h` to `g`. They can fire one after the
other whatever is in `h`, but the compiled rule needs the same value in `g` and `h`. -/
theorem C69_refuted : ¬ C69_full := by
  intro h
  obtain ⟨H, cf⟩ := exists_collisionFree
  have vx : ExSlot (exVar "x") := exSlot_var (by decide) (by decide) (by decide)
  have vy : ExSlot (exVar "y") := exSlot_var (by decide) (by decide) (by decide)
  have h1 : ExRule (exTestOf "g" (exVar "x")) (exPutIn "h" (exVar "x")) := exTestOf_rule vx vx (by simp) (by simp) (fun _ h => h)
  have h2 : ExRule (exTestOf "h" (exVar "y")) (exPutIn "g" (exVar "y")) := exTestOf_rule vy vy (by simp) (by simp) (fun _ h => h)
  have e : newRule (exPy H) exCompReg "r2" ⟨.ok (exTestOf "g" (exVar "x")), .ok (exPutIn "h" (exVar "x"))⟩
      ⟨.ok (exTestOf "h" (exVar "y")), .ok (exPutIn "g" (exVar "y"))⟩ (exSVof "h" "g" (exVar "x")) exCBufs =
      .ok (some ⟨.ok (exBoth (exVar "x") (exVar "x")),
        .ok [(⟨'=', "g"⟩, .chunk (exGoal (exVar "x"))), (⟨'=', "h"⟩, .chunk (exGoal (exVar "x")))]⟩) :=
    newRule_steps (l2 := exTestOf "h" (exVar "y__rule__r2")) (sv' := exSVof "h" "g" (exVar "x"))
      (st := ⟨[("y__rule__r2", "x"), ("x", "x")], []⟩) (sv'' := exSVof "h" "g" (exVar "x")) rfl rfl rfl rfl rfl rfl
  obtain ⟨f1, f2⟩ := exCopies_fire (l1 := exTestOf "g" (exVar "x")) (s := "a") (t := "b")
    (exTestOf_says (Or.inl ⟨rfl, Or.inr ⟨"x", by decide, rfl, rfl⟩⟩))
  obtain ⟨σ, hH, _⟩ := h (exPy H) exCompReg "r2" _ _ _ _ _ _ _ exCBufs (exTwoFaces "a" "b") (exTwoFaces "a" "a") (exTwoFaces "a" "a")
    (exRule_regular cf h1 h2 (exSVof_fine vx) "a" "b") (exRule_modifying h1) (exRule_modifying h2)
    (exSVof_recorded h1 (by decide)) (exRule_furnished h1 h2 _ _) e f1 f2
  have hval : ∀ (n t : String), ((⟨'=', n⟩ : Key), LVal.chunk (exGoal (exVar "x"))) ∈ exBoth (exVar "x") (exVar "x") → t ≠ "None" →
      alook n (exTwoFaces "a" "b") = some ⟨[exGoal (exLit t)], []⟩ → σ "x" = some (.str t) := by
    intro n t hm ht hf
    have := hH.conds _ hm
    cases this with
    | test hb hd hc _ =>
      rw [hf] at hb
      cases hb
      cases hd
      obtain ⟨v, hv, hs⟩ := (condHolds_iff.1 hc "state" (.vv (exVar "x")) (.str t) (by simp [exGoal])
        ((slotHas_iff (exGoal_data _).1 "state" _).2 (by simp [exGoal, exLit, matchingVal, alook]))).1 "x" rfl (by decide)
      cases v <;> simp [SameVal] at hs
      · exact absurd hs ht
      · rw [hv, hs]
  have a1 := hval "g" "a" (by simp [exBoth]) (by decide) rfl
  rw [hval "h" "b" (by simp [exBoth]) (by decide) rfl] at a1
  simp at a1

/-- The copying rules can be replaced if the first one tests both buffers. -/
theorem exCopies_replaceable : Replaceable "r2" (exBoth (exVar "x") (exLit "a")) (exPutIn "h" (exVar "x")) (exTestOf "h" (exVar "y"))
    (exPutIn "g" (exVar "y")) (exSVof "h" "g" (exVar "x")) := by
  have len : ∀ v u : String, v.length = 1 → v ≠ u ++ "__rule__" ++ "r2" := by
    intro v u h e
    have := congrArg String.length e
    simp only [String.length_append] at this
    have e2 : ("__rule__").length = 8 := rfl
    omega
  have pos : ∀ y, PosVar (exBoth (exVar "x") (exLit "a")) y → y = "x" := by
    rintro y ⟨b, c, n, x, hm, hx, hy⟩
    simp [exBoth] at hm
    rcases hm with ⟨_, rfl⟩ | ⟨_, rfl⟩
    · simp [exGoal] at hx
      obtain ⟨_, rfl⟩ := hx
      cases hy; rfl
    · simp [exGoal] at hx
      obtain ⟨_, rfl⟩ := hx
      cases hy
  have neg : ∀ y, ¬ NegVar (exBoth (exVar "x") (exLit "a")) y := by
    rintro y ⟨b, c, n, x, hm, hx, hy⟩
    simp [exBoth] at hm
    rcases hm with ⟨_, rfl⟩ | ⟨_, rfl⟩ <;>
    · simp [exGoal] at hx
      obtain ⟨_, rfl⟩ := hx
      simp [exVar, exLit] at hy
  refine ⟨?_, ?_, ?_, ?_, ?_⟩
  · rintro b n x y ⟨c, c2, d, _, m2, hx, _, _⟩
    simp [exTestOf] at m2
    obtain ⟨rfl, rfl⟩ := m2
    simp [exGoal] at hx
    exact ⟨exGoal (exLit "a"), exLit "a", by simp [exBoth], by simp [exGoal, hx.1]⟩
  · intro n hn
    have : n = "g" ∨ n = "h" := by
      rcases hn with ⟨p, h⟩ | ⟨p, h⟩
      · simp [exBoth] at h
        rcases h with ⟨rfl, _⟩ | ⟨rfl, _⟩ <;> simp
      · simp [exTestOf] at h
        exact Or.inr h.1
    refine ⟨fun h => ?_, neg n, fun u => len n u ?_⟩
    · have := pos n h
      subst this
      simp at *
    · rcases this with rfl | rfl <;> rfl
  · rintro y u (h | h)
    · rw [pos y h]; exact len _ _ rfl
    · exact absurd h (neg y)
  · intro b c c2 c1 n y m1 m2
    simp [exPutIn] at m1 m2
    rw [m1.1] at m2
    simp at m2
  · intro b c c2 m1 m2
    simp [exPutIn] at m1 m2
    rw [m1.1] at m2
    simp at m2

/-- The hypotheses of C69 are met: the first rule needs "a" in `h` and copies the value of `g` to it, the second one copies that of `h`
to `g`. They fire one after the other, with a variable of one tied to a variable of the other. -/
example {H : PyHash} (cf : H.CollisionFree) :
    let l1 := exBoth (exVar "x") (exLit "a"); let r1 := exPutIn "h" (exVar "x")
    let l2 := exTestOf "h" (exVar "y"); let r2 := exPutIn "g" (exVar "y"); let sv := exSVof "h" "g" (exVar "x")
    let rhs : List (Key × RVal) := [(⟨'=', "g"⟩, .chunk (exGoal (exVar "x"))), (⟨'=', "h"⟩, .chunk (exGoal (exVar "x")))]
    RegularPair (exPy H) exCompReg l1 r1 l2 r2 sv DataVal (exTwoFaces "b" "a") ∧ ModifyingRule exCompReg l1 r1 ∧
    ModifyingRule exCompReg l2 r2 ∧ Recorded l1 r1 sv ∧ Furnished l1 r1 l2 r2 (exTwoFaces "b" "a") ∧ Replaceable "r2" l1 r1 l2 r2 sv ∧
    newRule (exPy H) exCompReg "r2" ⟨.ok l1, .ok r1⟩ ⟨.ok l2, .ok r2⟩ sv exCBufs = .ok (some ⟨.ok l1, .ok rhs⟩) ∧
    Fires DataVal l1 r1 (exTwoFaces "b" "a") (exTwoFaces "b" "b") ∧ Fires DataVal l2 r2 (exTwoFaces "b" "b") (exTwoFaces "b" "b") := by
  intro l1 r1 l2 r2 sv rhs
  have vx : ExSlot (exVar "x") := exSlot_var (by decide) (by decide) (by decide)
  have vy : ExSlot (exVar "y") := exSlot_var (by decide) (by decide) (by decide)
  have h1 : ExRule l1 r1 := exBoth_rule vx (exSlot_lit (by decide) (by decide)) vx (by simp) (fun _ h => h)
  have h2 : ExRule l2 r2 := exTestOf_rule vy vy (by simp) (by simp) (fun _ h => h)
  refine ⟨exRule_regular cf h1 h2 (exSVof_fine vx) _ _, exRule_modifying h1, exRule_modifying h2, exSVof_recorded h1 (by decide),
    exRule_furnished h1 h2 _ _, exCopies_replaceable, newRule_steps (l2 := exTestOf "h" (exVar "y__rule__r2"))
    (sv' := exSVof "h" "g" (exVar "x")) (st := ⟨[("y__rule__r2", "x"), ("x", "x")], []⟩) (sv'' := exSVof "h" "g" (exVar "x"))
    rfl rfl rfl rfl rfl rfl, exCopies_fire (exBoth_says (Or.inr ⟨"x", by decide, rfl, rfl⟩) (Or.inl rfl))⟩

end Verif.Props
