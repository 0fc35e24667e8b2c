import Verif.Model.BoundVars
import Verif.Spec.BoundVars
import Verif.Lemmas.ChunkDict
/-! Helper lemmas about `check_bound_vars`. -/
namespace Verif
open Verif.Spec

theorem blank_iff (v : Val) : Blank v ↔ v.truthy = false := by
  cases v <;> simp [Blank, Val.truthy]

theorem pyEq_refl (H : PyHash) (v : Val) : pyEq H v v = true := by
  simp only [pyEq]; cases v.view H <;> simp [View.eq, View.hash]

theorem isRelation_false {H : PyHash} (cf : H.CollisionFree) {v : Val} (hp : PlainVal v) (h1 : v ≠ .str ">") (h2 : v ≠ .str "<") :
    isRelation H v = false := by
  simp only [isRelation, Bool.or_eq_false_iff]
  constructor
  · rw [← Bool.not_eq_true, keyEq_content cf (plainVal_str _) hp]
    cases v <;> simp_all [content, eq_comm]
  · rw [← Bool.not_eq_true, keyEq_content cf (plainVal_str _) hp]
    cases v <;> simp_all [content, eq_comm]

theorem cbvCombine_none (H : PyHash) (r : Val) (l : List Val) : cbvCombine H ⟨Option.none, r, l⟩ = .ok ⟨Option.none, r, l⟩ := rfl

/-- Once `result` is the ordinary value `temp_result`, the remaining rounds change nothing. -/
theorem cbvCombine_same {H : PyHash} {t : Val} (l : List Val) (h : isRelation H t = false) :
    cbvCombine H ⟨some t, t, l⟩ = .ok ⟨some t, t, l⟩ := by
  simp [cbvCombine, h, pyEq_refl]

theorem isRelation_none {H : PyHash} : isRelation H .none = false := by
  simp [isRelation, keyEq, View.keyEq, Val.view, View.eq]

theorem cbvCombine_first {H : PyHash} {t : Val} (l : List Val) :
    cbvCombine H ⟨some t, .none, l⟩ = .ok ⟨some t, t, l⟩ := by
  simp [cbvCombine, isRelation_none, Val.truthy]

theorem cbvNegLoop_ok {H : PyHash} (cf : H.CollisionFree) {bv : BV} {b : Bool} (hb : ∀ y v, bv.get y = some v → PlainVal v) :
    ∀ (ys : List String) (neg : List Val), (∀ v ∈ neg, PlainVal v) → (∀ y ∈ ys, bv.get y ≠ Option.none) →
    ∃ l, cbvNegLoop H bv b neg ys = .ok l ∧ (∀ v ∈ l, PlainVal v) ∧
      (∀ v ∈ l, v ∈ neg ∨ ∃ y ∈ ys, bv.get y = some v) ∧ (∀ v ∈ neg, v ∈ l) ∧
      (∀ y ∈ ys, ∀ v, bv.get y = some v → ∃ w ∈ l, content w = content v)
  | [], neg, hn, _ => ⟨neg, rfl, hn, fun v h => .inl h, fun v h => h, by simp⟩
  | y :: r, neg, hn, hy => by
    cases hg : bv.get y with
    | none => exact absurd hg (hy y (by simp))
    | some v =>
      obtain ⟨a1, a2, a3, _, a5⟩ := addVal_facts cf hn (hb y v hg)
      obtain ⟨l, h1, h2, h3, h4, h5⟩ := cbvNegLoop_ok (b := b) cf hb r (addVal H neg v) a5 (fun z hz => hy z (by simp [hz]))
      refine ⟨l, by simp only [cbvNegLoop, hg, h1], h2, ?_, fun w hw => h4 w (a2 w hw), ?_⟩
      · intro w hw
        rcases h3 w hw with h | ⟨z, hz, h⟩
        · rcases a1 w h with h | rfl
          · exact .inl h
          · exact .inr ⟨y, by simp, hg⟩
        · exact .inr ⟨z, by simp [hz], h⟩
      · intro z hz u hu
        rcases List.mem_cons.mp hz with rfl | hz
        · rw [hg] at hu; cases hu
          obtain ⟨w, hw, hc⟩ := a3
          exact ⟨w, h4 w hw, hc⟩
        · exact h5 z hz u hu

theorem cbvNegLoop_err {H : PyHash} {bv : BV} {b : Bool} :
    ∀ (ys : List String) (neg : List Val), (∃ y ∈ ys, bv.get y = Option.none) →
    cbvNegLoop H bv b neg ys = .error (if b then .actr else .unboundLocal)
  | [], neg, h => by simp at h
  | y :: r, neg, h => by
    cases hg : bv.get y with
    | none => simp only [cbvNegLoop, hg]
    | some v =>
      simp only [cbvNegLoop, hg]
      apply cbvNegLoop_err r
      obtain ⟨z, hz, hn⟩ := h
      rcases List.mem_cons.mp hz with rfl | hz
      · rw [hg] at hn; cases hn
      · exact ⟨z, hz, hn⟩

theorem addVals_facts {H : PyHash} (cf : H.CollisionFree) :
    ∀ (vs l : List Val), (∀ w ∈ l, PlainVal w) → (∀ w ∈ vs, PlainVal w) →
    (∀ w ∈ vs.foldl (addVal H) l, w ∈ l ∨ w ∈ vs) ∧ (∀ w ∈ l, w ∈ vs.foldl (addVal H) l) ∧
    (∀ v ∈ vs, ∃ w ∈ vs.foldl (addVal H) l, content w = content v) ∧ (∀ w ∈ vs.foldl (addVal H) l, PlainVal w)
  | [], l, hl, _ => ⟨fun w h => .inl h, fun w h => h, by simp, hl⟩
  | v :: r, l, hl, hv => by
    obtain ⟨a1, a2, a3, _, a5⟩ := addVal_facts cf hl (hv v (by simp))
    obtain ⟨b1, b2, b3, b4⟩ := addVals_facts cf r (addVal H l v) a5 (fun w hw => hv w (by simp [hw]))
    refine ⟨?_, fun w hw => b2 w (a2 w hw), ?_, b4⟩
    · intro w hw
      rcases b1 w hw with h | h
      · rcases a1 w h with h | rfl
        · exact .inl h
        · exact .inr (by simp)
      · exact .inr (by simp [h])
    · intro u hu
      rcases List.mem_cons.mp hu with rfl | hu
      · obtain ⟨w, hw, hc⟩ := a3
        exact ⟨w, b2 w hw, hc⟩
      · exact b3 u hu

/-- The second half: both negative fields, starting from a settled positive part. -/
def cbvRest (P : Py) (bv : BV) (negImpossible : Bool) (x : VarVal) (st : CbvState) : Except PyErr VarVal :=
  (cbvNegvalues P.H negImpossible x st).bind fun st => (cbvCombine P.H st).bind fun st =>
  (cbvNegvars P.H bv negImpossible x st).bind fun st => (cbvCombine P.H st).bind fun st =>
  cbvFinish P st

theorem checkBoundVars_eq (P : Py) (bv : BV) (ni : Bool) (e : Slot) :
    checkBoundVars P bv ni e = (cbvCombine P.H (cbvValues (splitting e) CbvState.init)).bind fun st =>
      (cbvVars bv (splitting e) st).bind fun st => (cbvCombine P.H st).bind fun st => cbvRest P bv ni (splitting e) st := rfl

/-- A settled state: nothing demanded so far, or an ordinary value. -/
def Settled (H : PyHash) (st : CbvState) : Prop :=
  (st.temp = Option.none ∧ st.result = .none) ∨ (∃ t, st.temp = some t ∧ st.result = t ∧ isRelation H t = false ∧ t.truthy = true)

theorem settled_combine {H : PyHash} {st : CbvState} (h : Settled H st) : cbvCombine H st = .ok st := by
  obtain ⟨t, r, l⟩ := st
  rcases h with ⟨h1, h2⟩ | ⟨u, h1, h2, h, _⟩ <;> simp only at h1 h2 <;> subst h1 h2
  · rfl
  · exact cbvCombine_same l h

theorem settled_neg {H : PyHash} {st : CbvState} (h : Settled H st) (l : List Val) : Settled H { st with neg := l } := h

theorem settled_finish {P : Py} {st : CbvState} (h : Settled P.H st) :
    cbvFinish P st = .ok ⟨st.result, Option.none, P.vord st.neg, []⟩ := by
  obtain ⟨t, r, l⟩ := st
  rcases h with ⟨h1, h2⟩ | ⟨u, h1, h2, _, h⟩ <;> simp only at h1 h2 <;> subst h1 h2 <;> simp_all [cbvFinish]

theorem cbvRest_settled {P : Py} {bv : BV} {ni : Bool} {x : VarVal} {st : CbvState} (cf : P.H.CollisionFree)
    (hs : Settled P.H st) (hneg : st.neg = []) (hp : PlainRequest bv x)
    (hnb : ∀ y ∈ x.negvars, bv.get y = Option.none → optStrTruthy x.vars = true) :
    (((ni = true ∧ (x.negvalues ≠ [] ∨ x.negvars ≠ [])) ∨ ∃ y ∈ x.negvars, bv.get y = Option.none) →
      cbvRest P bv ni x st = .error .actr) ∧
    (¬ ((ni = true ∧ (x.negvalues ≠ [] ∨ x.negvars ≠ [])) ∨ ∃ y ∈ x.negvars, bv.get y = Option.none) →
      ∃ l, cbvRest P bv ni x st = .ok ⟨st.result, Option.none, l, []⟩ ∧ (∀ v ∈ l, Rejects bv x v) ∧
        (∀ v, Rejects bv x v → ∃ w ∈ l, content w = content v)) := by
  constructor
  · intro h
    by_cases hni : ni = true
    · by_cases hv : x.negvalues = []
      · have hr : x.negvars ≠ [] := by
          rcases h with ⟨_, h | h⟩ | ⟨y, hy, _⟩
          · exact absurd hv h
          · exact h
          · exact List.ne_nil_of_mem hy
        simp [cbvRest, cbvNegvalues, cbvNegvars, hv, hr, hni, Except.bind, settled_combine hs]
      · simp [cbvRest, cbvNegvalues, hv, hni, Except.bind]
    · have hex : ∃ y ∈ x.negvars, bv.get y = Option.none := by
        rcases h with ⟨h, _⟩ | h
        · exact absurd h hni
        · exact h
      have hr : x.negvars ≠ [] := by obtain ⟨y, hy, _⟩ := hex; exact List.ne_nil_of_mem hy
      have ht : optStrTruthy x.vars = true := by obtain ⟨y, hy, h⟩ := hex; exact hnb y hy h
      have hni : ni = false := by simpa using hni
      have key : ∀ l, (cbvNegvars P.H bv ni x { st with neg := l }) = .error .actr := by
        intro l
        simp [cbvNegvars, hr, hni, cbvNegLoop_err _ _ hex, ht]
      by_cases hv : x.negvalues = []
      · have := key st.neg
        simp only [cbvRest, cbvNegvalues, hv, Except.bind, settled_combine hs, List.isEmpty_nil, if_true]
        rw [this]
      · have := key (x.negvalues.foldl (addVal P.H) st.neg)
        subst hni
        simp [cbvRest, cbvNegvalues, hv, Except.bind, settled_combine (settled_neg hs _), this]
  · intro h
    push Not at h
    obtain ⟨h1, h2⟩ := h
    -- the negated values
    obtain ⟨l1, e1, p1, m1, c1⟩ : ∃ l1, cbvNegvalues P.H ni x st = .ok { st with neg := l1 } ∧ (∀ v ∈ l1, PlainVal v) ∧
        (∀ v ∈ l1, v ∈ x.negvalues) ∧ (∀ v ∈ x.negvalues, ∃ w ∈ l1, content w = content v) := by
      by_cases hv : x.negvalues = []
      · refine ⟨[], ?_, by simp, by simp, by simp [hv]⟩
        obtain ⟨a, b, c⟩ := st
        simp only at hneg; subst hneg
        simp [cbvNegvalues, hv]
      · have hni : ni = false := by
          rw [← Bool.not_eq_true]; intro hn; exact hv (h1 hn).1
        obtain ⟨b1, b2, b3, b4⟩ := addVals_facts cf x.negvalues st.neg (by simp [hneg]) hp.negvalues
        refine ⟨_, by simp only [cbvNegvalues, hv, hni, List.isEmpty_iff, if_false]; rfl, b4, ?_, b3⟩
        intro v hv'
        rcases b1 v hv' with h | h
        · simp [hneg] at h
        · exact h
    obtain ⟨l2, e2, s2, c2⟩ : ∃ l2, cbvNegvars P.H bv ni x { st with neg := l1 } = .ok { st with neg := l2 } ∧
        (∀ v ∈ l2, Rejects bv x v) ∧ (∀ v, Rejects bv x v → ∃ w ∈ l2, content w = content v) := by
      by_cases hr : x.negvars = []
      · refine ⟨l1, by simp [cbvNegvars, hr], fun v h => .literal (m1 v h), ?_⟩
        rintro v (h | ⟨h, _⟩)
        · exact c1 v h
        · simp [hr] at h
      · have hni : ni = false := by
          rw [← Bool.not_eq_true]; intro hn; exact hr (h1 hn).2
        obtain ⟨l, g1, _, g3, g4, g5⟩ := cbvNegLoop_ok (b := optStrTruthy x.vars) cf hp.bound x.negvars l1 p1 h2
        refine ⟨l, by simp [cbvNegvars, hr, hni, g1], ?_, ?_⟩
        · intro v hv
          rcases g3 v hv with h | ⟨y, hy, h⟩
          · exact .literal (m1 v h)
          · exact .bound hy h
        · rintro v (h | ⟨hy, h⟩)
          · obtain ⟨w, hw, hc⟩ := c1 v h
            exact ⟨w, g4 w hw, hc⟩
          · exact g5 _ hy v h
    refine ⟨P.vord l2, ?_, ?_, ?_⟩
    · simp only [cbvRest, e1, Except.bind, settled_combine (settled_neg hs _), e2, settled_finish (settled_neg hs _)]
    · intro v hv; exact s2 v ((P.vperm l2).mem_iff.mp hv)
    · intro v hv
      obtain ⟨w, hw, hc⟩ := c2 v hv
      exact ⟨w, (P.vperm l2).mem_iff.mpr hw, hc⟩

end Verif
