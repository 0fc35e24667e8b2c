import Verif.Lemmas.BoundVars
/-! # Properties C13 and C14: resolving right-hand sides -/
namespace Verif.Props
open Verif Verif.Spec

/-- An example of the Python environment: every non-empty name is legal, sets keep their order. -/
def exPy (H : PyHash) : Py :=
  ⟨⟨⟨id, fun _ => List.Perm.refl _⟩, fun s => s != "", fun s => s != ""⟩, H, id, fun _ => List.Perm.refl _⟩

/-- The whole of C13. -/
def C13_full : Prop := ∀ (P : Py) (bv : BV) (ni : Bool) (x : VarVal), P.H.CollisionFree → PlainRequest bv x →
  (Illegal bv ni x → checkBoundVars P bv ni (.vv x) = .error .actr) ∧
  (¬ Illegal bv ni x → ∃ r, checkBoundVars P bv ni (.vv x) = .ok r ∧ Resolves bv x r)

/-- A variable bound to nothing (as after matching `=x` with a slot the chunk does not have) and used alone crashes with
UnboundLocalError. -/
theorem C13_blank (P : Py) (bv : BV) (ni : Bool) (x : VarVal) (y : String) (v : Val) (hx : x.vars = some y) (hy : y ≠ "")
    (hb : bv.get y = some v) (hv : Blank v) (hl : Blank x.values) (hn : x.negvalues = [] ∧ x.negvars = [])
    (hr : isRelation P.H v = false) :
    checkBoundVars P bv ni (.vv x) = .error .unboundLocal := by
  rw [blank_iff] at hv hl
  have e1 : cbvCombine P.H ⟨some v, v, []⟩ = .ok ⟨some v, v, []⟩ := cbvCombine_same [] hr
  simp [checkBoundVars_eq, splitting, cbvValues, CbvState.init, hl, cbvCombine_none, cbvVars, hx, optStrTruthy, hy, hb,
    cbvCombine_first, Except.bind, cbvRest, cbvNegvalues, cbvNegvars, hn, e1, cbvFinish, hv]

/-- C13 is false as stated. -/
theorem C13_refuted : ¬ C13_full := by
  intro h
  obtain ⟨H, cf⟩ := exists_collisionFree
  have h2 := (h (exPy H) ⟨[("x", .none)], []⟩ true ⟨.none, some "x", [], []⟩ cf
    ⟨plainVal_none, by simp, by intro y v; simp [BV.get, alook]; rintro _ rfl; exact plainVal_none⟩).2 ?_
  · obtain ⟨r, hr, _⟩ := h2
    rw [C13_blank (exPy H) _ true _ "x" .none rfl (by decide) (by simp [BV.get, alook]) (by simp [Blank]) (by simp [Blank])
      (by simp) isRelation_none] at hr
    cases hr
  · intro hi
    rcases hi with ⟨y, hy, _, hn⟩ | ⟨y, hy, _⟩ | ⟨_, hn⟩ | ⟨v, w, hv, hw, hne⟩
    · simp at hy; subst hy; simp [BV.get, alook] at hn
    · simp at hy
    · simp at hn
    · have : ∀ u, Demands ⟨[("x", .none)], []⟩ ⟨.none, some "x", [], []⟩ u → u = .none := by
        rintro u (h | ⟨h, _, h'⟩)
        · simp [Blank] at h
        · simp at h; subst h; simp [BV.get, alook] at h'; exact h'.symm
      rw [this v hv, this w hw] at hne
      exact hne trivial

/-- An unbound negated variable crashes with UnboundLocalError instead of ACTRError when the slot has no positive
variable. -/
theorem C13_negated (P : Py) (bv : BV) (y : String) (hy : bv.get y = Option.none) :
    checkBoundVars P bv false (.vv ⟨.none, Option.none, [], [y]⟩) = .error .unboundLocal := by
  simp [checkBoundVars_eq, splitting, cbvValues, CbvState.init, Val.truthy, cbvCombine_none, cbvVars, optStrTruthy,
    Except.bind, cbvRest, cbvNegvalues, cbvNegvars, cbvNegLoop, hy]

/-- The literal values ">" and "<" are not resolved to themselves: they come back four times as long. -/
theorem C13_relation (P : Py) (bv : BV) (ni : Bool) :
    checkBoundVars P bv ni (.vv ⟨.str ">", Option.none, [], []⟩) = .ok ⟨.str ">>>>", Option.none, P.vord [], []⟩ ∧
    checkBoundVars P bv ni (.vv ⟨.str "<", Option.none, [], []⟩) = .ok ⟨.str "<<<<", Option.none, P.vord [], []⟩ := by
  have r1 : isRelation P.H (.str ">") = true := by simp [isRelation, keyEq, View.keyEq, Val.view, View.eq]
  have r2 : isRelation P.H (.str "<") = true := by simp [isRelation, keyEq, View.keyEq, Val.view, View.eq]
  have t1 : (Val.str ">").truthy = true := by decide
  have t2 : (Val.str "<").truthy = true := by decide
  have s1 : (Val.str ">>").truthy = true := by decide
  have s2 : (Val.str "<<").truthy = true := by decide
  have s3 : (Val.str ">>>").truthy = true := by decide
  have s4 : (Val.str "<<<").truthy = true := by decide
  constructor
  · have c2 : cbvCombine P.H ⟨some (.str ">"), .str ">", []⟩ = .ok ⟨some (.str ">"), .str ">>", []⟩ := by
      simp [cbvCombine, r1, joinDesc]
    have c3 : cbvCombine P.H ⟨some (.str ">"), .str ">>", []⟩ = .ok ⟨some (.str ">"), .str ">>>", []⟩ := by
      have : ">" < ">>" := by decide
      simp [cbvCombine, r1, s1, joinDesc, this]
    have c4 : cbvCombine P.H ⟨some (.str ">"), .str ">>>", []⟩ = .ok ⟨some (.str ">"), .str ">>>>", []⟩ := by
      have : ">" < ">>>" := by decide
      simp [cbvCombine, r1, s3, joinDesc, this]
    simp [checkBoundVars_eq, splitting, cbvValues, CbvState.init, t1, cbvCombine_first, cbvVars, optStrTruthy,
      Except.bind, cbvRest, cbvNegvalues, cbvNegvars, c2, c3, c4, cbvFinish]
  · have c2 : cbvCombine P.H ⟨some (.str "<"), .str "<", []⟩ = .ok ⟨some (.str "<"), .str "<<", []⟩ := by
      simp [cbvCombine, r2, joinDesc]
    have c3 : cbvCombine P.H ⟨some (.str "<"), .str "<<", []⟩ = .ok ⟨some (.str "<"), .str "<<<", []⟩ := by
      have : "<" < "<<" := by decide
      simp [cbvCombine, r2, s2, joinDesc, this]
    have c4 : cbvCombine P.H ⟨some (.str "<"), .str "<<<", []⟩ = .ok ⟨some (.str "<"), .str "<<<<", []⟩ := by
      have : "<" < "<<<" := by decide
      simp [cbvCombine, r2, s4, joinDesc, this]
    simp [checkBoundVars_eq, splitting, cbvValues, CbvState.init, t2, cbvCombine_first, cbvVars, optStrTruthy,
      Except.bind, cbvRest, cbvNegvalues, cbvNegvars, c2, c3, c4, cbvFinish]

theorem optStr_iff (o : Option String) : optStrTruthy o = true ↔ ∃ y, o = some y ∧ y ≠ "" := by
  cases o <;> simp [optStrTruthy]

/-- C13 in ordinary cases: the description is rejected with ACTRError exactly for the documented reasons and otherwise
resolved. -/
theorem C13_partial (P : Py) (bv : BV) (ni : Bool) (x : VarVal) (cf : P.H.CollisionFree) (hp : PlainRequest bv x)
    (ho : Ordinary bv x) :
    (Illegal bv ni x → checkBoundVars P bv ni (.vv x) = .error .actr) ∧
    (¬ Illegal bv ni x → ∃ r, checkBoundVars P bv ni (.vv x) = .ok r ∧ Resolves bv x r) := by
  have rel : ∀ v, Demands bv x v → PlainVal v → isRelation P.H v = false := fun v hd hpv =>
    isRelation_false cf hpv (ho.noRelation v hd).1 (ho.noRelation v hd).2
  have plainD : ∀ v, Demands bv x v → PlainVal v := by
    rintro v (h | ⟨_, _, h⟩)
    · exact hp.value
    · exact hp.bound _ _ h
  have hnb : ∀ y ∈ x.negvars, bv.get y = Option.none → optStrTruthy x.vars = true := fun y hy h =>
    (optStr_iff _).mpr (ho.negBound y hy h)
  have truthyD : ∀ v, Demands bv x v → v.truthy = true := fun v hd => by
    have := ho.notBlank v hd; rw [blank_iff] at this; simpa using this
  have setD : ∀ v, Demands bv x v → Settled P.H ⟨some v, v, []⟩ := fun v hd =>
    .inr ⟨v, rfl, rfl, rel v hd (plainD v hd), truthyD v hd⟩
  -- the state after the two positive fields
  have main : (Illegal bv ni x ∧ ∃ y, x.vars = some y ∧ y ≠ "" ∧ bv.get y = Option.none) ∧
        checkBoundVars P bv ni (.vv x) = .error .actr ∨
      (∃ v w, Demands bv x v ∧ Demands bv x w ∧ ¬ SameVal v w) ∧ checkBoundVars P bv ni (.vv x) = .error .actr ∨
      (¬ (∃ y, x.vars = some y ∧ y ≠ "" ∧ bv.get y = Option.none)) ∧
        ¬ (∃ v w, Demands bv x v ∧ Demands bv x w ∧ ¬ SameVal v w) ∧
        ∃ st : CbvState, checkBoundVars P bv ni (.vv x) = cbvRest P bv ni x st ∧ Settled P.H st ∧ st.neg = [] ∧
          (Demands bv x st.result ∨ ((∀ v, ¬ Demands bv x v) ∧ st.result = .none)) ∧
          (∀ v, Demands bv x v → SameVal st.result v) := by
    have refl : ∀ v, Demands bv x v → SameVal v v := fun v hd => (pyEq_iff cf v v (plainD v hd) (plainD v hd)).mp (pyEq_refl _ _)
    by_cases hvar : optStrTruthy x.vars = true
    · obtain ⟨y, hy, hne⟩ := (optStr_iff _).mp hvar
      cases hg : bv.get y with
      | none =>
        refine .inl ⟨⟨.unbound y hy hne hg, y, hy, hne, hg⟩, ?_⟩
        by_cases hl : x.values.truthy = true
        · simp [checkBoundVars_eq, splitting, cbvValues, CbvState.init, hl, cbvCombine_first, cbvVars, optStrTruthy, hy, hne, hg,
            Except.bind]
        · have hl : x.values.truthy = false := by simpa using hl
          simp [checkBoundVars_eq, splitting, cbvValues, CbvState.init, hl, cbvCombine_none, cbvVars, optStrTruthy, hy, hne, hg,
            Except.bind]
      | some v =>
        have dv : Demands bv x v := .bound hy hne hg
        have nun : ¬ ∃ y, x.vars = some y ∧ y ≠ "" ∧ bv.get y = Option.none := by
          rintro ⟨z, hz, _, hn⟩; rw [hy] at hz; cases hz; rw [hg] at hn; cases hn
        by_cases hl : x.values.truthy = true
        · have dl : Demands bv x x.values := .literal (by rw [blank_iff]; simp [hl])
          have red : checkBoundVars P bv ni (.vv x) = (cbvCombine P.H ⟨some v, x.values, []⟩).bind fun st => cbvRest P bv ni x st := by
            simp [checkBoundVars_eq, splitting, cbvValues, CbvState.init, hl, cbvCombine_first, cbvVars, optStrTruthy, hy, hne,
              hg, Except.bind]
          have comb : cbvCombine P.H ⟨some v, x.values, []⟩ =
              if pyEq P.H v x.values then .ok ⟨some v, v, []⟩ else .error .actr := by
            simp only [cbvCombine, rel v dv (plainD v dv), rel _ dl (plainD _ dl), hl, Bool.and_false, Bool.or_false,
              Bool.true_and]
            cases pyEq P.H v x.values <;> simp
          by_cases he : pyEq P.H v x.values = true
          · have hs : SameVal v x.values := (pyEq_iff cf v _ (plainD v dv) (plainD _ dl)).mp he
            have hall : ∀ u, Demands bv x u → SameVal v u := by
              rintro u (h | ⟨h, _, h'⟩)
              · exact hs
              · rw [hy] at h; cases h; rw [hg] at h'; cases h'; exact refl v dv
            have hall' : ∀ u, Demands bv x u → SameVal x.values u := by
              have he' : SameVal x.values v := by
                cases v <;> cases hx : x.values <;> simp_all [SameVal]
              rintro u (h | ⟨h, _, h'⟩)
              · exact refl _ dl
              · rw [hy] at h; cases h; rw [hg] at h'; cases h'; exact he'
            refine .inr (.inr ⟨nun, ?_, ⟨some v, v, []⟩, ?_, setD v dv, rfl, .inl dv, hall⟩)
            · rintro ⟨a, b, ha, hb, hab⟩
              rcases ha with h | ⟨h, _, h'⟩
              · exact hab (hall' b hb)
              · rw [hy] at h; cases h; rw [hg] at h'; cases h'; exact hab (hall b hb)
            · rw [red, comb, if_pos he]; rfl
          · refine .inr (.inl ⟨⟨v, x.values, dv, dl, ?_⟩, ?_⟩)
            · rw [← pyEq_iff cf v _ (plainD v dv) (plainD _ dl)]; exact he
            · rw [red, comb, if_neg he]; rfl
        · have hl : x.values.truthy = false := by simpa using hl
          have hbl : Blank x.values := (blank_iff _).mpr hl
          have hall : ∀ u, Demands bv x u → u = v := by
            rintro u (h | ⟨h, _, h'⟩)
            · exact absurd hbl h
            · rw [hy] at h; cases h; rw [hg] at h'; cases h'; rfl
          refine .inr (.inr ⟨nun, ?_, ⟨some v, v, []⟩, ?_, setD v dv, rfl, .inl dv, fun u hu => hall u hu ▸ refl v dv⟩)
          · rintro ⟨a, b, ha, hb, hab⟩
            rw [hall a ha, hall b hb] at hab; exact hab (refl v dv)
          · simp [checkBoundVars_eq, splitting, cbvValues, CbvState.init, hl, cbvCombine_first, cbvCombine_none, cbvVars,
              optStrTruthy, hy, hne, hg, Except.bind]
    · have hvar' : optStrTruthy x.vars = false := by simpa using hvar
      have nun : ¬ ∃ y, x.vars = some y ∧ y ≠ "" ∧ bv.get y = Option.none := by
        rintro ⟨z, hz, hne, _⟩; exact hvar ((optStr_iff _).mpr ⟨z, hz, hne⟩)
      by_cases hl : x.values.truthy = true
      · have dl : Demands bv x x.values := .literal (by rw [blank_iff]; simp [hl])
        have hall : ∀ u, Demands bv x u → u = x.values := by
          rintro u (h | ⟨h, h', _⟩)
          · rfl
          · exact absurd ((optStr_iff _).mpr ⟨_, h, h'⟩) hvar
        refine .inr (.inr ⟨nun, ?_, ⟨some x.values, x.values, []⟩, ?_, setD _ dl, rfl, .inl dl, fun u hu => (hall u hu).symm ▸ refl _ dl⟩)
        · rintro ⟨a, b, ha, hb, hab⟩
          rw [hall a ha, hall b hb] at hab; exact hab (refl _ dl)
        · simp [checkBoundVars_eq, splitting, cbvValues, CbvState.init, hl, cbvCombine_first, cbvVars, hvar', Except.bind,
            settled_combine (setD _ dl)]
      · have hl : x.values.truthy = false := by simpa using hl
        have hbl : Blank x.values := (blank_iff _).mpr hl
        have hall : ∀ u, ¬ Demands bv x u := by
          rintro u (h | ⟨h, h', _⟩)
          · exact absurd hbl h
          · exact absurd ((optStr_iff _).mpr ⟨_, h, h'⟩) hvar
        refine .inr (.inr ⟨nun, ?_, CbvState.init, ?_, .inl ⟨rfl, rfl⟩, rfl, .inr ⟨hall, rfl⟩, fun u hu => absurd hu (hall u)⟩)
        · rintro ⟨a, b, ha, _, _⟩; exact hall a ha
        · simp [checkBoundVars_eq, splitting, cbvValues, CbvState.init, hl, cbvCombine_none, cbvVars, hvar', Except.bind]
  rcases main with ⟨⟨hi, _⟩, he⟩ | ⟨⟨v, w, hv, hw, hne⟩, he⟩ | ⟨hu, ht, st, hc, hs, hn, hval, hsame⟩
  · exact ⟨fun _ => he, fun h => absurd hi h⟩
  · exact ⟨fun _ => he, fun h => absurd (.two v w hv hw hne) h⟩
  · obtain ⟨herr, hok⟩ := cbvRest_settled (ni := ni) cf hs hn hp hnb
    rw [hc]
    constructor
    · intro hi
      apply herr
      rcases hi with ⟨y, hy, hne, hg⟩ | ⟨y, hy, hg⟩ | ⟨h1, h2⟩ | ⟨v, w, hv, hw, hne⟩
      · exact absurd ⟨y, hy, hne, hg⟩ hu
      · exact .inr ⟨y, hy, hg⟩
      · exact .inl ⟨h1, h2⟩
      · exact absurd ⟨v, w, hv, hw, hne⟩ ht
    · intro hi
      obtain ⟨l, h1, h2, h3⟩ := hok (by
        rintro (⟨h1, h2⟩ | ⟨y, hy, hg⟩)
        · exact hi (.negation h1 h2)
        · exact hi (.unboundNeg y hy hg))
      exact ⟨_, h1, ⟨rfl, rfl, hval, hsame, h2, h3⟩⟩

/-- A slot with a literal, an agreeing variable, a negated value and a negated variable is ordinary and legal. -/
example : let bv : BV := ⟨[("x", .str "a"), ("y", .str "b")], []⟩
    let x : VarVal := ⟨.str "a", some "x", [.str "c"], ["y"]⟩
    PlainRequest bv x ∧ Ordinary bv x ∧ ¬ Illegal bv false x := by
  intro bv x
  have gx : bv.get "x" = some (.str "a") := by simp [bv, BV.get, alook]
  have gy : bv.get "y" = some (.str "b") := by simp [bv, BV.get, alook]
  have hd : ∀ v, Demands bv x v → v = .str "a" := by
    rintro v (h | ⟨h, _, h'⟩)
    · rfl
    · simp only [x, Option.some.injEq] at h; subst h; rw [gx] at h'; cases h'; rfl
  refine ⟨⟨plainVal_str _, by simp [x, PlainVal], ?_⟩, ⟨?_, ?_, ?_⟩, ?_⟩
  · intro y v h
    simp only [bv, BV.get, alook] at h
    split at h
    · cases h; exact plainVal_str _
    · split at h
      · cases h; exact plainVal_str _
      · cases h
  · intro v h; rw [hd v h]; simp [Blank]
  · intro v h; rw [hd v h]; simp
  · intro y hy h; simp only [x, List.mem_singleton] at hy; subst hy; rw [gy] at h; cases h
  · rintro (⟨y, hy, _, h⟩ | ⟨y, hy, h⟩ | ⟨h, _⟩ | ⟨v, w, hv, hw, h⟩)
    · simp only [x, Option.some.injEq] at hy; subst hy; rw [gx] at h; cases h
    · simp only [x, List.mem_singleton] at hy; subst hy; rw [gy] at h; cases h
    · cases h
    · rw [hd v hv, hd w hw] at h; exact h (by simp [SameVal])

/-- The whole of C14: in a visual-location request (`negative_impossible=False`), `>=x` and `<=x` with `x` bound to `n` are
resolved like the literals `>n` and `<n`. -/
def C14_full : Prop := ∀ (P : Py) (bv : BV) (y n rel : String), P.H.CollisionFree → y ≠ "" → bv.get y = some (.str n) →
  (rel = ">" ∨ rel = "<") → n ≠ "" → n ≠ ">" → n ≠ "<" →
  checkBoundVars P bv false (.vv ⟨.str rel, some y, [], []⟩) =
    checkBoundVars P bv false (.vv ⟨.str (rel ++ n), Option.none, [], []⟩)

/-- Whatever `x` is bound to, a request with `>=x` or `<=x` raises ACTRError. -/
theorem C14_never (P : Py) (bv : BV) (y n rel : String) (hy : y ≠ "") (hb : bv.get y = some (.str n))
    (hr : rel = ">" ∨ rel = "<") (h0 : n ≠ "") (h1 : n ≠ ">") (h2 : n ≠ "<") (ni : Bool) :
    checkBoundVars P bv ni (.vv ⟨.str rel, some y, [], []⟩) = .error .actr := by
  have r0 : isRelation P.H (.str rel) = true := by
    rcases hr with rfl | rfl <;> simp [isRelation, keyEq, View.keyEq, Val.view, View.eq]
  have rn : isRelation P.H (.str n) = false := by
    simp [isRelation, keyEq, View.keyEq, Val.view, View.eq, h1.symm, h2.symm]
  have t0 : (Val.str rel).truthy = true := by rcases hr with rfl | rfl <;> decide
  -- the joined string is longer than both parts
  have hlen : ∀ a b : String, b ≠ "" → a ++ b ≠ a := by
    intro a b hb h
    have := congrArg String.length h
    rw [String.length_append] at this
    have : b.length = 0 := by omega
    exact hb (String.length_eq_zero_iff.mp this)
  have hlen' : ∀ a b : String, b ≠ "" → b ++ a ≠ a := by
    intro a b hb h
    have := congrArg String.length h
    rw [String.length_append] at this
    have : b.length = 0 := by omega
    exact hb (String.length_eq_zero_iff.mp this)
  have hrel : rel ≠ "" := by rcases hr with rfl | rfl <;> decide
  obtain ⟨j, hj, hjn, hj1⟩ : ∃ j, joinDesc (.str n) (.str rel) = .ok (.str j) ∧ j ≠ n ∧ j ≠ "" := by
    have hne : ∀ a b : String, a ≠ "" → a ++ b ≠ "" := by
      intro a b ha h
      have h' := congrArg String.length h
      rw [String.length_append] at h'
      have h0 : "".length = 0 := rfl
      exact ha (String.length_eq_zero_iff.mp (by omega))
    simp only [joinDesc]
    split
    · exact ⟨_, rfl, hlen' _ _ hrel, hne _ _ hrel⟩
    · exact ⟨_, rfl, hlen _ _ hrel, hne _ _ h0⟩
  have hlong : isRelation P.H (.str j) = false := by
    have hj2 : 2 ≤ j.length := by
      simp only [joinDesc, Except.ok.injEq, Val.str.injEq] at hj
      have l1 : 1 ≤ n.length := by
        rcases Nat.eq_zero_or_pos n.length with h | h
        · exact absurd (String.length_eq_zero_iff.mp h) h0
        · exact h
      have l2 : rel.length = 1 := by rcases hr with rfl | rfl <;> rfl
      split at hj <;> subst hj <;> rw [String.length_append] <;> omega
    simp only [isRelation, keyEq, View.keyEq, Val.view, View.eq, Bool.or_eq_false_iff, Bool.and_eq_false_iff, beq_eq_false_iff_ne]
    constructor <;> right <;> rintro rfl <;> exact absurd hj2 (by decide)
  have c2 : cbvCombine P.H ⟨some (.str n), .str rel, []⟩ = .ok ⟨some (.str n), .str j, []⟩ := by
    simp [cbvCombine, r0, hj]
  have c3 : cbvCombine P.H ⟨some (.str n), .str j, []⟩ = .error .actr := by
    have : (Val.str j).truthy = true := by simp [Val.truthy, hj1]
    simp [cbvCombine, rn, hlong, this, pyEq, Val.view, View.eq, Ne.symm hjn]
  simp [checkBoundVars_eq, splitting, cbvValues, CbvState.init, t0, cbvCombine_first, cbvVars, optStrTruthy, hy, hb,
    Except.bind, cbvRest, cbvNegvalues, c2, c3]

/-- C14 is false: for instance `>=x` with x bound to 5. -/
theorem C14_refuted : ¬ C14_full := by
  intro h
  obtain ⟨H, cf⟩ := exists_collisionFree
  have h1 := h (exPy H) ⟨[("x", .str "5")], []⟩ "x" "5" ">" cf (by decide) (by simp [BV.get, alook]) (by simp) (by decide)
    (by decide) (by decide)
  rw [C14_never _ _ "x" "5" ">" (by decide) (by simp [BV.get, alook]) (by simp) (by decide) (by decide) (by decide) false] at h1
  obtain ⟨r, hr, _⟩ := (C13_partial (exPy H) ⟨[("x", .str "5")], []⟩ false ⟨.str (">" ++ "5"), Option.none, [], []⟩ cf
    ⟨plainVal_str _, by simp, by intro y v; simp [BV.get, alook]; rintro _ rfl; exact plainVal_str _⟩
    ⟨by rintro v (h | ⟨h, _⟩)
        · exact h
        · simp at h,
      by rintro v (h | ⟨h, _⟩)
         · exact ⟨fun h => absurd (Val.str.inj h) (by decide), fun h => absurd (Val.str.inj h) (by decide)⟩
         · simp at h,
      by simp⟩).2 (by
        have hd : ∀ v, Demands ⟨[("x", .str "5")], []⟩ ⟨.str (">" ++ "5"), Option.none, [], []⟩ v → v = .str (">" ++ "5") := by
          rintro v (h | ⟨h, _⟩)
          · rfl
          · simp at h
        rintro (⟨y, hy, _, h⟩ | ⟨y, hy, h⟩ | ⟨h, _⟩ | ⟨v, w, hv, hw, h⟩)
        · simp at hy
        · simp at hy
        · cases h
        · rw [hd v hv, hd w hw] at h; exact h rfl)
  rw [hr] at h1
  cases h1

/-- The hypotheses of C14_never can be met. -/
example : ∃ (bv : BV) (y n : String), y ≠ "" ∧ bv.get y = some (.str n) ∧ n ≠ "" ∧ n ≠ ">" ∧ n ≠ "<" :=
  ⟨⟨[("x", .str "320")], []⟩, "x", "320", by decide, by simp [BV.get, alook], by decide, by decide, by decide⟩

end Verif.Props
