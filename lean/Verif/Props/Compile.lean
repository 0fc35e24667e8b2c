import Verif.Lemmas.Compile
import Verif.Props.BoundVars
import Verif.Lemmas.Rounding
/-!
# Properties of production compilation: C48, C49, C50
-/
namespace Verif.Props
open Verif Verif.Spec

/-! ## C48 -/

/-- All rules of the set yield dictionaries. -/
def DictRules (rules : CRules) : Prop := ∀ n r, alook n rules = some r → DictBody r.body

/-- The outcome that C48 promises when compilation is not blocked. -/
def CompiledOutcome (P : Py) (reg : Reg) (rules : CRules) (r1 r2 : String) (sv : SlotVals) (bufs : List (String × CBuf))
    (o : CRules × Except PyErr Compiled) : Prop :=
  ∃ x1 x2 new name, alook r1 rules = some x1 ∧ alook r2 rules = some x2 ∧
    newRule P reg r2 x1.body x2.body sv bufs = .ok (some new) ∧ name ≠ r1 ∧ name ≠ r2 ∧
    ((o.2 = .ok (.made name false) ∧ AddedRule rules o.1 name new ∧ o.1.map Prod.fst = rules.map Prod.fst ++ [name]) ∨
      (o.2 = .ok (.made name true) ∧ KeptRule P.H rules o.1 name new))

/-- The whole of C48 (without the part about recompiling): compiling two rules of the set is blocked or yields a rule. -/
def C48_full : Prop := ∀ (P : Py) (reg : Reg) (p : UParams) (rules : CRules) (r1 r2 : String) (sv : SlotVals)
  (bufs : List (String × CBuf)), DictRules rules → r1 ∈ rules.map Prod.fst → r2 ∈ rules.map Prod.fst →
  ((compileRules P reg p rules r1 r2 sv bufs).2 = .ok .blocked ∧ (compileRules P reg p rules r1 r2 sv bufs).1 = rules) ∨
    CompiledOutcome P reg rules r1 r2 sv bufs (compileRules P reg p rules r1 r2 sv bufs)

theorem alook_relearn (p : UParams) (u1 : ℚ) (name : String) (r : CRule) (rules : CRules) (h : alook name rules = some r) :
    (∃ r', alook name (relearn p u1 name r rules) = some r' ∧ r'.body = r.body ∧ r'.reward = r.reward) ∧
    (∀ n, n ≠ name → alook n (relearn p u1 name r rules) = alook n rules) ∧
    (relearn p u1 name r rules).map Prod.fst = rules.map Prod.fst := by
  unfold relearn
  split
  · refine ⟨⟨{ r with utility := round4 (r.utility + p.alpha * (u1 - r.utility)) }, by rw [alook_aset, if_pos rfl], rfl, rfl⟩, fun n hn => by rw [alook_aset, if_neg hn], ?_⟩
    rw [keys_aset, if_pos (mem_keys_iff.2 ⟨r, h⟩)]
  · exact ⟨⟨r, h, rfl, rfl⟩, fun _ _ => rfl, rfl⟩

theorem nameLoop_pair {H : PyHash} {p : UParams} {r1 r2 : String} {u1 : ℚ} {new : Body} {rules : CRules}
    {o : CRules × Except PyErr Compiled} {fuel idx : ℕ} (h : nameLoop H p r1 r2 u1 new rules fuel idx = some o) :
    ∃ i, idx ≤ i ∧ (∀ j, idx ≤ j → j < i → ∃ r, alook (compiledName r1 r2 j) rules = some r ∧ bodyEq H r.body new = .ok false) ∧
      ((alook (compiledName r1 r2 i) rules = Option.none ∧ o.1 = aset (compiledName r1 r2 i) ⟨new, 0, Option.none⟩ rules ∧
          o.2 = .ok (.made (compiledName r1 r2 i) false)) ∨
        ∃ r, alook (compiledName r1 r2 i) rules = some r ∧
          ((∃ e, bodyEq H r.body new = .error e ∧ o.1 = rules ∧ o.2 = .error e) ∨
            (bodyEq H r.body new = .ok true ∧ o.1 = relearn p u1 (compiledName r1 r2 i) r rules ∧
              o.2 = .ok (.made (compiledName r1 r2 i) true)))) :=
  nameLoop_some (rules' := o.1) (out := o.2) h

/-- What `compile_rules` does, in terms of the loop looking for a name. -/
theorem compileRules_cases (P : Py) (reg : Reg) (p : UParams) (rules : CRules) (r1 r2 : String) (sv : SlotVals)
    (bufs : List (String × CBuf)) :
    ((compileRules P reg p rules r1 r2 sv bufs).2 = .ok .blocked ∧ (compileRules P reg p rules r1 r2 sv bufs).1 = rules) ∨
    (∃ e, (compileRules P reg p rules r1 r2 sv bufs).2 = .error e ∧ (compileRules P reg p rules r1 r2 sv bufs).1 = rules) ∨
    ∃ x1 x2 new, alook r1 rules = some x1 ∧ alook r2 rules = some x2 ∧
      newRule P reg r2 x1.body x2.body sv bufs = .ok (some new) ∧
      nameLoop P.H p r1 r2 x1.utility new rules (rules.length + 1) 0 = some (compileRules P reg p rules r1 r2 sv bufs) := by
  unfold compileRules
  rcases h1 : alook r1 rules with _ | x1
  · exact Or.inr (Or.inl ⟨_, rfl, rfl⟩)
  rcases h2 : alook r2 rules with _ | x2
  · exact Or.inr (Or.inl ⟨_, rfl, rfl⟩)
  rcases hn : newRule P reg r2 x1.body x2.body sv bufs with e | o
  · exact Or.inr (Or.inl ⟨e, by simp only [hn], by simp only [hn]⟩)
  cases o with
  | none => exact Or.inl ⟨by simp only [hn], by simp only [hn]⟩
  | some new =>
    refine Or.inr (Or.inr ⟨x1, x2, new, rfl, rfl, hn, ?_⟩)
    obtain ⟨x, hx⟩ := nameLoop_total P.H p r1 r2 x1.utility new rules
    simp only [hn, hx, Option.getD_some]

/-- C48 except that compilation may also raise an exception; then no rule changes. Missing: see `C48_refuted`. -/
theorem C48_partial (P : Py) (reg : Reg) (p : UParams) (rules : CRules) (r1 r2 : String) (sv : SlotVals)
    (bufs : List (String × CBuf)) (hd : DictRules rules) :
    ((compileRules P reg p rules r1 r2 sv bufs).2 = .ok .blocked ∧ (compileRules P reg p rules r1 r2 sv bufs).1 = rules) ∨
    (∃ e, (compileRules P reg p rules r1 r2 sv bufs).2 = .error e ∧ (compileRules P reg p rules r1 r2 sv bufs).1 = rules) ∨
    CompiledOutcome P reg rules r1 r2 sv bufs (compileRules P reg p rules r1 r2 sv bufs) := by
  rcases compileRules_cases P reg p rules r1 r2 sv bufs with h | h | ⟨x1, x2, new, h1, h2, hn, hl⟩
  · exact Or.inl h
  · exact Or.inr (Or.inl h)
  · obtain ⟨i, _, _, hc⟩ := nameLoop_pair hl
    have hne := compiledName_ne r1 r2 i
    rcases hc with ⟨ha, hr, ho⟩ | ⟨r, ha, ⟨e, hb, hr, ho⟩ | ⟨hb, hr, ho⟩⟩
    · refine Or.inr (Or.inr ⟨x1, x2, new, _, h1, h2, hn, hne.1, hne.2, Or.inl ⟨ho, ⟨ha, ?_, ?_⟩, ?_⟩⟩)
      · rw [hr]; exact ⟨_, by rw [alook_aset, if_pos rfl], rfl⟩
      · intro n hn; rw [hr, alook_aset, if_neg hn]
      · rw [hr, keys_aset, if_neg]
        intro hm
        obtain ⟨r, hr⟩ := mem_keys_iff.1 hm
        rw [ha] at hr; cases hr
    · exact Or.inr (Or.inl ⟨e, ho, hr⟩)
    · obtain ⟨⟨r', hr', hb', hw'⟩, ho', hk'⟩ := alook_relearn p x1.utility _ r rules ha
      refine Or.inr (Or.inr ⟨x1, x2, new, _, h1, h2, hn, hne.1, hne.2, Or.inr ⟨ho, ⟨⟨r, r', ha, ?_, hb', hw', ?_⟩, ?_, ?_⟩⟩⟩)
      · rw [hr]; exact hr'
      · exact bodyEq_same (hd _ _ ha) hb
      · rw [hr]; exact ho'
      · rw [hr]; exact hk'

/-- Without utility learning, compiling a rule that exists already changes nothing at all. -/
theorem C48_unlearned (P : Py) (reg : Reg) (p : UParams) (rules : CRules) (r1 r2 : String) (sv : SlotVals)
    (bufs : List (String × CBuf)) (hp : p.utilityLearning = false) (name : String)
    (ho : (compileRules P reg p rules r1 r2 sv bufs).2 = .ok (.made name true)) :
    (compileRules P reg p rules r1 r2 sv bufs).1 = rules := by
  rcases compileRules_cases P reg p rules r1 r2 sv bufs with h | ⟨e, he, h⟩ | ⟨x1, x2, new, h1, h2, hn, hl⟩
  · exact h.2
  · exact h
  · obtain ⟨i, _, _, hc⟩ := nameLoop_pair hl
    rcases hc with ⟨ha, hr, ho'⟩ | ⟨r, ha, ⟨e, hb, hr, ho'⟩ | ⟨hb, hr, ho'⟩⟩
    · rw [ho] at ho'; cases ho'
    · exact hr
    · rw [hr]; simp [relearn, hp]

/-- With utility learning, the utility of a rule that is compiled again moves towards that of the first rule. -/
theorem C48_learned (P : Py) (reg : Reg) (p : UParams) (rules : CRules) (r1 r2 : String) (sv : SlotVals)
    (bufs : List (String × CBuf)) (hp : p.utilityLearning = true) (name : String)
    (ho : (compileRules P reg p rules r1 r2 sv bufs).2 = .ok (.made name true)) :
    ∃ x1 r r', alook r1 rules = some x1 ∧ alook name rules = some r ∧
      alook name (compileRules P reg p rules r1 r2 sv bufs).1 = some r' ∧
      IsRounded (r.utility + p.alpha * (x1.utility - r.utility)) r'.utility := by
  rcases compileRules_cases P reg p rules r1 r2 sv bufs with h | ⟨e, he, h⟩ | ⟨x1, x2, new, h1, h2, hn, hl⟩
  · rw [ho] at h; cases h.1
  · rw [ho] at he; cases he
  · obtain ⟨i, _, _, hc⟩ := nameLoop_pair hl
    rcases hc with ⟨ha, hr, ho'⟩ | ⟨r, ha, ⟨e, hb, hr, ho'⟩ | ⟨hb, hr, ho'⟩⟩
    · rw [ho] at ho'; cases ho'
    · rw [ho] at ho'; cases ho'
    · rw [ho] at ho'
      simp only [Except.ok.injEq, Compiled.made.injEq, and_true] at ho'
      subst ho'
      refine ⟨x1, r, { r with utility := round4 (r.utility + p.alpha * (x1.utility - r.utility)) }, h1, ha, ?_, ?_⟩
      · rw [hr]; simp only [relearn, hp, if_true]; rw [alook_aset, if_pos rfl]
      · exact round4_isRounded _

/-- The part of C48 about recompiling: once a rule was made out of two rules, compiling them again with the same slots, at any later
time and with other rules added, does not add another rule and changes no body. -/
theorem C48_recompile (P : Py) (reg : Reg) (p p' : UParams) (rules rules'' : CRules) (r1 r2 : String) (sv : SlotVals)
    (bufs : List (String × CBuf)) (hd : DictRules rules) (name : String) (rec : Bool)
    (ho : (compileRules P reg p rules r1 r2 sv bufs).2 = .ok (.made name rec))
    (hs : StillThere (compileRules P reg p rules r1 r2 sv bufs).1 rules'') :
    (compileRules P reg p' rules'' r1 r2 sv bufs).1.map Prod.fst = rules''.map Prod.fst ∧
    StillThere rules'' (compileRules P reg p' rules'' r1 r2 sv bufs).1 ∧
    ((compileRules P reg p' rules'' r1 r2 sv bufs).2 = .ok (.made name true) ∨
      ∃ e, (compileRules P reg p' rules'' r1 r2 sv bufs).2 = .error e) := by
  have self : StillThere rules'' rules'' := fun n r h => ⟨r, h, rfl⟩
  rcases compileRules_cases P reg p rules r1 r2 sv bufs with h | ⟨e, he, h⟩ | ⟨x1, x2, new, h1, h2, hn, hl⟩
  · rw [ho] at h; cases h.1
  · rw [ho] at he; cases he
  obtain ⟨i, _, hj, hc⟩ := nameLoop_pair hl
  have hdn : DictBody new := newRule_dict (hd _ _ h1) (hd _ _ h2) hn
  -- the rules after the first compilation
  have hi : (∃ r, alook (compiledName r1 r2 i) (compileRules P reg p rules r1 r2 sv bufs).1 = some r ∧ bodyEq P.H r.body new ≠ .ok false) ∧
      name = compiledName r1 r2 i ∧
      ∀ n, n ≠ compiledName r1 r2 i → alook n (compileRules P reg p rules r1 r2 sv bufs).1 = alook n rules := by
    rcases hc with ⟨ha, hr, ho'⟩ | ⟨r, ha, ⟨e, hb, hr, ho'⟩ | ⟨hb, hr, ho'⟩⟩
    · rw [ho] at ho'
      simp only [Except.ok.injEq, Compiled.made.injEq] at ho'
      rw [hr]
      exact ⟨⟨_, by rw [alook_aset, if_pos rfl], bodyEq_refl hdn⟩, ho'.1, fun n hn => by rw [alook_aset, if_neg hn]⟩
    · rw [ho] at ho'; cases ho'
    · rw [ho] at ho'
      simp only [Except.ok.injEq, Compiled.made.injEq] at ho'
      obtain ⟨⟨r', hr', hb', _⟩, ho'', _⟩ := alook_relearn p x1.utility _ r rules ha
      rw [hr]
      exact ⟨⟨r', hr', by rw [hb', hb]; simp⟩, ho'.1, ho''⟩
  obtain ⟨⟨ri, hri, hbi⟩, hname, hother⟩ := hi
  have still : ∀ n r, n ≠ compiledName r1 r2 i → alook n rules = some r → ∃ r', alook n rules'' = some r' ∧ r'.body = r.body :=
    fun n r hne h => hs n r (by rw [hother n hne]; exact h)
  obtain ⟨x1', h1', hx1⟩ := still r1 x1 (fun e => (compiledName_ne r1 r2 i).1 e.symm) h1
  obtain ⟨x2', h2', hx2⟩ := still r2 x2 (fun e => (compiledName_ne r1 r2 i).2 e.symm) h2
  obtain ⟨ri', hri', hbri⟩ := hs _ _ hri
  rcases compileRules_cases P reg p' rules'' r1 r2 sv bufs with h | ⟨e, he, h⟩ | ⟨y1, y2, new', g1, g2, gn, gl⟩
  · exfalso
    have := h.1
    unfold compileRules at this
    rw [h1', h2'] at this
    simp only [hx1, hx2, hn] at this
    obtain ⟨x, hx⟩ := nameLoop_total P.H p' r1 r2 x1'.utility new rules''
    rw [hx] at this
    obtain ⟨_, _, _, hc⟩ := nameLoop_some (rules' := x.1) (out := x.2) hx
    simp only [Option.getD_some] at this
    rcases hc with ⟨_, _, ho'⟩ | ⟨_, _, ⟨_, _, _, ho'⟩ | ⟨_, _, ho'⟩⟩ <;> (rw [ho'] at this; cases this)
  · exact ⟨by rw [h], by rw [h]; exact self, Or.inr ⟨e, he⟩⟩
  · rw [h1'] at g1; cases g1
    rw [h2'] at g2; cases g2
    rw [hx1, hx2, hn] at gn
    cases gn
    obtain ⟨i', _, hj', hc'⟩ := nameLoop_pair gl
    rcases Nat.lt_trichotomy i' i with hlt | heq | hgt
    · obtain ⟨r, hr, hb⟩ := hj i' (Nat.zero_le _) hlt
      obtain ⟨r', hr', hb'⟩ := still _ r (fun e => by have := compiledName_inj e; omega) hr
      rcases hc' with ⟨ha, _, _⟩ | ⟨q, hq, ⟨e, hbq, _, _⟩ | ⟨hbq, _, _⟩⟩
      · rw [hr'] at ha; cases ha
      · rw [hr'] at hq; cases hq; rw [hb', hb] at hbq; cases hbq
      · rw [hr'] at hq; cases hq; rw [hb', hb] at hbq; cases hbq
    · subst heq
      rcases hc' with ⟨ha, _, _⟩ | ⟨q, hq, ⟨e, hbq, hr, ho'⟩ | ⟨hbq, hr, ho'⟩⟩
      · rw [hri'] at ha; cases ha
      · exact ⟨by rw [hr], by rw [hr]; exact self, Or.inr ⟨e, ho'⟩⟩
      · obtain ⟨⟨r', hr', hb', _⟩, ho'', hk⟩ := alook_relearn p' x1'.utility _ q rules'' hq
        refine ⟨by rw [hr]; exact hk, ?_, Or.inl (by rw [ho', hname])⟩
        intro n r hnr
        rw [hr]
        by_cases hne : n = compiledName r1 r2 i'
        · subst hne
          rw [hq] at hnr; cases hnr
          exact ⟨r', hr', hb'⟩
        · exact ⟨r, by rw [ho'' n hne]; exact hnr, rfl⟩
    · obtain ⟨r, hr, hb⟩ := hj' i (Nat.zero_le _) hgt
      rw [hri'] at hr; cases hr
      rw [hbri] at hb
      exact absurd hb hbi

/-! ### Examples and refutation -/

/-- A chunk of type `goal` whose slot `state` is given. -/
def exGoal (x : VarVal) : Chunk := ⟨"goal", [("state", .vv x)]⟩

/-- A literal value. -/
def exLit (s : String) : VarVal := ⟨.str s, Option.none, [], []⟩

/-- A variable. -/
def exVar (v : String) : VarVal := ⟨.none, some v, [], []⟩

/-- The registry of the examples. -/
def exCompReg : Reg := [("goal", ["state"])]

/-- A rule that retrieves a chunk. -/
def exRetrieve : Body := ⟨.ok [(⟨'=', "g"⟩, .chunk (exGoal (exLit "a")))], .ok [(⟨'+', "retrieval"⟩, .chunk (exGoal (exLit "b")))]⟩

/-- A rule that fires when the retrieval has failed, without testing the content of the buffer. -/
def exFailed : Body := ⟨.ok [(⟨'?', "retrieval"⟩, .dict [("buffer", "empty")])], .ok [(⟨'=', "g"⟩, .chunk (exGoal (exLit "c")))]⟩

/-- A rule that tests and changes the goal. -/
def exChange (a b : VarVal) : Body := ⟨.ok [(⟨'=', "g"⟩, .chunk (exGoal a))], .ok [(⟨'=', "g"⟩, .chunk (exGoal b))]⟩

def exCompParams : UParams := ⟨false, 0, false, 1/5⟩

theorem dictBody_of {l : List (Key × LVal)} {r : List (Key × RVal)} (hl : DictL l) (hr : DictR r) : DictBody ⟨.ok l, .ok r⟩ :=
  ⟨fun l' h => by cases h; exact hl, fun r' h => by cases h; exact hr⟩

theorem exRetrieve_dict : DictBody exRetrieve :=
  dictBody_of ⟨by decide, fun k d h => by simp at h⟩ ⟨by decide, fun k d h => by simp at h⟩

theorem exFailed_dict : DictBody exFailed :=
  dictBody_of ⟨by decide, fun k d h => by simp at h; rw [h.2]; decide⟩ ⟨by decide, fun k d h => by simp at h⟩

theorem exChange_dict (a b : VarVal) : DictBody (exChange a b) :=
  dictBody_of ⟨by simp, fun k d h => by simp at h⟩ ⟨by simp, fun k d h => by simp at h⟩

/-- Two rules with the given bodies. -/
def exTwo (a b : Body) : CRules := [("r1", ⟨a, 0, Option.none⟩), ("r2", ⟨b, 0, Option.none⟩)]

theorem exTwo_dict {a b : Body} (ha : DictBody a) (hb : DictBody b) : DictRules (exTwo a b) := by
  intro n r h
  simp only [exTwo, alook] at h
  split at h
  · cases h; exact ha
  · split at h
    · cases h; exact hb
    · cases h

/-- The buffers of a model. -/
def exCBufs : List (String × CBuf) :=
  [("g", ⟨.goal, true⟩), ("retrieval", ⟨.decmem, false⟩), ("manual", ⟨.motor, false⟩), ("visual", ⟨.visual, false⟩)]

/-- C48 is false: the first rule requested a retrieval, which failed, and the second rule does not test the retrieval buffer. Then
the list describing the retrieval is not consumed by `match`, and indexing it with a dictionary is a TypeError. -/
theorem C48_refuted : ¬ C48_full := by
  obtain ⟨H, _⟩ := exists_collisionFree
  intro h
  have := h (exPy H) exCompReg exCompParams (exTwo exRetrieve exFailed) "r1" "r2"
    [("g", .nothing), ("retrieval", .retr [("state", .vv (exLit "b"))] Option.none)] exCBufs
    (exTwo_dict exRetrieve_dict exFailed_dict) (by decide) (by decide)
  have e : (compileRules (exPy H) exCompReg exCompParams (exTwo exRetrieve exFailed) "r1" "r2"
    [("g", .nothing), ("retrieval", .retr [("state", .vv (exLit "b"))] Option.none)] exCBufs).2 = .error .type := rfl
  rcases this with ⟨h, _⟩ | ⟨_, _, _, _, _, _, _, _, _, ⟨h, _⟩ | ⟨h, _⟩⟩ <;> (rw [e] at h; cases h)

/-- The rules of the first example of C48: the first one sets the goal to "b", the second one reads it. -/
def exCompRules : CRules := exTwo (exChange (exLit "a") (exLit "b")) (exChange (exVar "x") (exLit "c"))

/-- What is known after the first rule. -/
def exSV : SlotVals := [("g", .dict [("state", .vv (exLit "b"))]), ("retrieval", .nothing)]

/-- C48, an instance: a rule is created under a new name and the two rules stay as they are. -/
example (H : PyHash) : (compileRules (exPy H) exCompReg exCompParams exCompRules "r1" "r2" exSV exCBufs).2 = .ok (.made "r1 and r2" false) ∧
    (compileRules (exPy H) exCompReg exCompParams exCompRules "r1" "r2" exSV exCBufs).1.map Prod.fst = ["r1", "r2", "r1 and r2"] :=
  ⟨rfl, rfl⟩

/-- C48, an instance of recompiling. -/
example (H : PyHash) : (compileRules (exPy H) exCompReg exCompParams (compileRules (exPy H) exCompReg exCompParams exCompRules "r1" "r2" exSV
    exCBufs).1 "r1" "r2" exSV exCBufs).1.map Prod.fst = ["r1", "r2", "r1 and r2"] :=
  (C48_recompile (exPy H) exCompReg exCompParams exCompParams exCompRules _ "r1" "r2" exSV exCBufs
    (exTwo_dict (exChange_dict _ _) (exChange_dict _ _)) "r1 and r2" false rfl (fun n r h => ⟨r, h, rfl⟩)).1

/-! ## C49 -/

theorem ruleVar_inj (name : String) : Function.Injective (ruleVar name) := by
  intro a b h
  have := congrArg String.toList h
  simp only [ruleVar, String.toList_append, List.append_assoc, List.append_cancel_right_eq] at this
  exact String.toList_inj.1 this

/-- The whole of C49, for one slot: some injective renaming, whose names carry the rule's name, is applied to the variables, unless a
new name is in use, which raises ACTRError. `used` are the names of the variables in use. -/
def C49_full : Prop := ∀ (E : PyEnv) (name : String) (used : List String), ∃ ρ : String → String, Function.Injective ρ ∧
  (∀ v, ∃ a b, ρ v = a ++ name ++ b) ∧ ∀ s : Slot,
    ((∃ v, SlotVar s v ∧ ρ v ∈ used) → renameSlot E name used s = .error .actr) ∧
    ((∀ v, SlotVar s v → ρ v ∉ used) → ∃ y, renameSlot E name used s = .ok y ∧ SlotRenamed ρ s y)

theorem splitting_vars_truthy {x : VarVal} : optStrTruthy x.vars = true ↔ ∃ v, x.vars = some v ∧ v ≠ "" := by
  cases h : x.vars with
  | none => simp [optStrTruthy]
  | some v => simp [optStrTruthy]

/-- Renaming the variables of one slot succeeds if the names in use do not begin with "=". -/
theorem renameSlot_ok (E : PyEnv) (name : String) (used : List String) (hu : ∀ u ∈ used, ∀ s, u ≠ "=" ++ s) (s : Slot) :
    ∃ y, renameSlot E name used s = .ok y ∧ SlotRenamed (ruleVar name) s y := by
  have h1 : ∀ t, used.contains ("=" ++ t) = false := by
    intro t
    rw [Bool.eq_false_iff]
    intro h
    exact hu _ (List.contains_iff_mem.1 h) t rfl
  have h2 : used.contains "=new_name" = false := h1 "new_name"
  simp only [renameSlot, h1, h2, Bool.and_false, Bool.false_eq_true, if_false]
  refine ⟨_, rfl, ?_⟩
  cases s with
  | empty =>
    refine ⟨fun _ => ?_, by simp, by simp, by simp, by simp⟩
    have : E.ord [] = [] := by
      have := E.perm []
      exact List.Perm.eq_nil this
    simp [splitting, optStrTruthy, this]
  | vv x =>
    constructor
    · intro h; cases h
    · intro x' h; cases h; exact ⟨rfl, rfl⟩
    · intro x' v h hv hne
      cases h
      simp [splitting, optStrTruthy, hv, hne]
    · intro x' h hv
      cases h
      rcases hv with hv | hv <;> simp [splitting, optStrTruthy, hv]
    · intro x' w h
      cases h
      rw [(E.perm _).mem_iff, List.mem_dedup, List.mem_map]
      simp only [splitting, eq_comm]

/-- C49 except for clashes: if the names in use do not begin with "=" (which no variable name read from a slot does), every
variable is renamed to a name carrying the rule's name, injectively, and nothing else in the slot changes. Missing: clashes are not
detected, see `C49_refuted`. -/
theorem C49_partial (E : PyEnv) (name : String) (used : List String) (hu : ∀ u ∈ used, ∀ s, u ≠ "=" ++ s) :
    ∃ ρ : String → String, Function.Injective ρ ∧ (∀ v, ∃ a, ρ v = a ++ name) ∧
      ∀ s : Slot, ∃ y, renameSlot E name used s = .ok y ∧ SlotRenamed ρ s y :=
  ⟨ruleVar name, ruleVar_inj name, fun v => ⟨v ++ "__rule__", rfl⟩, renameSlot_ok E name used hu⟩

/-- C49 is false: the first rule uses a variable that has the new name of the variable of the second rule, and there is no
ACTRError: the code looks for the name with "=" in front, while the names in use are stored without it. -/
theorem C49_refuted : ¬ C49_full := by
  obtain ⟨H, _⟩ := exists_collisionFree
  intro h
  obtain ⟨ρ, _, _, hs⟩ := h (exPy H).toPyEnv "r2" ["x__rule__r2"]
  obtain ⟨h1, h2⟩ := hs (.vv (exVar "x"))
  have e : renameSlot (exPy H).toPyEnv "r2" ["x__rule__r2"] (.vv (exVar "x")) = .ok (exVar "x__rule__r2") := rfl
  by_cases hc : ρ "x" = "x__rule__r2"
  · have := h1 ⟨"x", ⟨_, rfl, Or.inl ⟨rfl, by decide⟩⟩, by rw [hc]; simp⟩
    rw [e] at this; cases this
  · obtain ⟨y, hy, hr⟩ := h2 (by
      rintro v ⟨x, hx, ⟨hv, _⟩ | hv⟩
      · cases hx; simp only [exVar, Option.some.injEq] at hv; subst hv; simpa using hc
      · cases hx; simp [exVar] at hv)
    rw [e] at hy; cases hy
    have := hr.pos _ "x" rfl rfl (by decide)
    simp only [exVar, Option.some.injEq] at this
    exact hc this.symm

/-- The same when rules are compiled: the first rule's variable `x__rule__r2` is in use, the second rule `r2` has the variable `x`,
and a rule is made all the same. -/
theorem C49_clash_compiled (H : PyHash) :
    (compileRules (exPy H) exCompReg exCompParams
      (exTwo (exChange (exVar "x__rule__r2") (exVar "x__rule__r2")) (exChange (exVar "x") (exLit "c"))) "r1" "r2"
      [("g", .dict [("state", .vv (exVar "x__rule__r2"))])] exCBufs).2 = .ok (.made "r1 and r2" false) := rfl

theorem mapSlots_forall {f : Slot → Except PyErr VarVal} {R : Slot → VarVal → Prop} (hf : ∀ s, ∃ y, f s = .ok y ∧ R s y)
    (l : Slots) : ∃ d, mapSlots f l = .ok d ∧ List.Forall₂ (fun p q => q.1 = p.1 ∧ R p.2 q.2) l d := by
  induction l with
  | nil => exact ⟨[], rfl, .nil⟩
  | cons x r ih =>
    obtain ⟨n, s⟩ := x
    obtain ⟨y, hy, hR⟩ := hf s
    obtain ⟨d, hd, hl⟩ := ih
    exact ⟨(n, y) :: d, by simp [mapSlots, hy, hd], .cons ⟨rfl, hR⟩ hl⟩

theorem forall₂_fst {α β : Type} {R : String × α → String × β → Prop} {l : List (String × α)} {l' : List (String × β)}
    (h : List.Forall₂ R l l') (hR : ∀ p q, R p q → q.1 = p.1) : l'.map Prod.fst = l.map Prod.fst := by
  induction h with
  | nil => rfl
  | cons h _ ih => simp [hR _ _ h, ih]

theorem forall₂_mem_left {α β : Type} {R : α → β → Prop} {l : List α} {l' : List β} (h : List.Forall₂ R l l') {a : α}
    (ha : a ∈ l) : ∃ b ∈ l', R a b := by
  induction h with
  | nil => simp at ha
  | cons h _ ih =>
    rcases List.mem_cons.1 ha with rfl | ha
    · exact ⟨_, List.mem_cons_self, h⟩
    · obtain ⟨b, hb, hr⟩ := ih ha
      exact ⟨b, List.mem_cons_of_mem _ hb, hr⟩

/-- Renaming the variables of a chunk. -/
theorem mapChunk_rename {E : PyEnv} {reg : Reg} (hr : RegOk E reg) (name : String) (used : List String)
    (hu : ∀ u ∈ used, ∀ s, u ≠ "=" ++ s) {c : Chunk} (hc : KnownChunk reg c) :
    ∃ c', mapChunk E reg (renameSlot E name used) c = .ok c' ∧ ChunkRenamed (ruleVar name) c c' := by
  obtain ⟨d, hd, hl⟩ := mapSlots_forall (renameSlot_ok E name used hu) c.slots
  obtain ⟨hnd, fs, hfs, hsub⟩ := hc
  have hk : d.map Prod.fst = c.slots.map Prod.fst := forall₂_fst hl (fun _ _ h => h.1)
  have hconv : convertAll E (d.map (fun p => (p.1, SlotArg.vv p.2))) = .ok d := by
    clear hd hl hk
    induction d with
    | nil => rfl
    | cons x r ih => simp [convertAll, SlotArg.convert, ih]
  have hkeys : (d.map (fun p => (p.1, SlotArg.vv p.2))).map Prod.fst = c.slots.map Prod.fst := by
    rw [List.map_map]; exact hk
  have hvk : (d.map (fun p => (p.1, SlotOf.vv p.2))).map Prod.fst = c.slots.map Prod.fst := by
    rw [List.map_map]; exact hk
  rcases createChunk_cases hr (typ := c.typ) (by rw [hkeys]; exact hnd) hconv with ⟨_, sl, reg', hcr, _, hal, _⟩ | ⟨hno, _⟩
  · refine ⟨⟨c.typ, sl⟩, by simp only [mapChunk, hd, mkChunk, hcr], rfl, ?_, ?_⟩
    · intro n s hm
      obtain ⟨⟨n', y⟩, hm', hn', hR⟩ := forall₂_mem_left hl hm
      simp only at hn' hR
      subst hn'
      refine ⟨y, ?_, hR⟩
      have hmem : (n', SlotOf.vv y) ∈ d.map (fun p => (p.1, SlotOf.vv p.2)) := List.mem_map.2 ⟨_, hm', rfl⟩
      rw [hal, alook_of_mem (by rw [hvk]; exact hnd) hmem]
      rfl
    · intro n hn
      have : alook n (d.map (fun p => (p.1, SlotOf.vv p.2))) = Option.none := by
        rcases h : alook n (d.map (fun p => (p.1, SlotOf.vv p.2))) with _ | v
        · exact h
        · exact absurd (hvk ▸ mem_keys_iff.2 ⟨v, h⟩) hn
      simp only [hal, this, Option.none_or]
      split
      · exact Or.inr rfl
      · exact Or.inl rfl
  · exact absurd (Or.inl ⟨fs, hfs, by rw [hkeys]; exact hsub⟩) hno

theorem mapEntries_forall {α : Type} {f : Key → α → Except PyErr α} {R : Key → α → α → Prop} {l : List (Key × α)}
    (hf : ∀ k v, (k, v) ∈ l → ∃ w, f k v = .ok w ∧ R k v w) :
    ∃ l', mapEntries f l = .ok l' ∧ List.Forall₂ (fun p q => q.1 = p.1 ∧ R p.1 p.2 q.2) l l' := by
  induction l with
  | nil => exact ⟨[], rfl, .nil⟩
  | cons x r ih =>
    obtain ⟨k, v⟩ := x
    obtain ⟨w, hw, hR⟩ := hf k v List.mem_cons_self
    obtain ⟨d, hd, hl⟩ := ih (fun k v h => hf k v (List.mem_cons_of_mem _ h))
    exact ⟨(k, w) :: d, by simp [mapEntries, hw, hd], .cons ⟨rfl, hR⟩ hl⟩

theorem isChunkCode_iff (c : Char) : isChunkCode c = true ↔ c ∈ ['=', '+', '@', '*'] := by
  simp [isChunkCode, or_assoc]

/-- C49 for a whole rule: renaming keeps the keys, renames the variables of every chunk under a sign that comes with a chunk, and
leaves everything else as it is. -/
theorem C49_rule_partial (E : PyEnv) (reg : Reg) (hr : RegOk E reg) (name : String) (used : List String)
    (hu : ∀ u ∈ used, ∀ s, u ≠ "=" ++ s) (l : List (Key × LVal)) (r : List (Key × RVal)) (hg : GoodRule reg l r) :
    ∃ ρ : String → String, Function.Injective ρ ∧ (∀ v, ∃ a, ρ v = a ++ name) ∧
    ∃ l' r', renameBody E reg name used ⟨.ok l, .ok r⟩ = ⟨.ok l', .ok r'⟩ ∧
      List.Forall₂ (fun p q => q.1 = p.1 ∧ ((∃ c c', p.2 = LVal.chunk c ∧ q.2 = LVal.chunk c' ∧ ChunkRenamed ρ c c') ∨
        (p.1.code ∉ ['=', '+', '@', '*'] ∧ q.2 = p.2))) l l' ∧
      List.Forall₂ (fun p q => q.1 = p.1 ∧ ((∃ c c', p.2 = RVal.chunk c ∧ q.2 = RVal.chunk c' ∧ ChunkRenamed ρ c c') ∨
        (p.1.code ∉ ['=', '+', '@', '*'] ∧ q.2 = p.2))) r r' := by
  refine ⟨ruleVar name, ruleVar_inj name, fun v => ⟨v ++ "__rule__", rfl⟩, ?_⟩
  obtain ⟨l', hl, hl2⟩ := mapEntries_forall (f := mapLVal E reg (renameSlot E name used)) (l := l)
    (R := fun k v w => (∃ c c', v = LVal.chunk c ∧ w = LVal.chunk c' ∧ ChunkRenamed (ruleVar name) c c') ∨
      (k.code ∉ ['=', '+', '@', '*'] ∧ w = v)) (by
    intro k v hm
    by_cases hk : isChunkCode k.code = true
    · obtain ⟨c, rfl, hc⟩ := hg.lhs k v hm ((isChunkCode_iff _).1 hk)
      obtain ⟨c', hc', hR⟩ := mapChunk_rename hr name used hu hc
      exact ⟨.chunk c', by simp [mapLVal, hk, hc', Except.map], Or.inl ⟨c, c', rfl, rfl, hR⟩⟩
    · exact ⟨v, by simp [mapLVal, hk], Or.inr ⟨fun h => hk ((isChunkCode_iff _).2 h), rfl⟩⟩)
  obtain ⟨r', hr', hr2⟩ := mapEntries_forall (f := mapRVal E reg (renameSlot E name used)) (l := r)
    (R := fun k v w => (∃ c c', v = RVal.chunk c ∧ w = RVal.chunk c' ∧ ChunkRenamed (ruleVar name) c c') ∨
      (k.code ∉ ['=', '+', '@', '*'] ∧ w = v)) (by
    intro k v hm
    by_cases hk : isChunkCode k.code = true
    · obtain ⟨c, rfl, hc⟩ := hg.rhs k v hm ((isChunkCode_iff _).1 hk)
      obtain ⟨c', hc', hR⟩ := mapChunk_rename hr name used hu hc
      exact ⟨.chunk c', by simp [mapRVal, hk, hc', Except.map], Or.inl ⟨c, c', rfl, rfl, hR⟩⟩
    · exact ⟨v, by simp [mapRVal, hk], Or.inr ⟨fun h => hk ((isChunkCode_iff _).2 h), rfl⟩⟩)
  exact ⟨l', r', by simp only [renameBody, mapBody, Except.bind, hl, hr'], hl2, hr2⟩

/-- C49, an instance: a variable, a negated variable and a value. -/
example (H : PyHash) : renameSlot (exPy H).toPyEnv "r2" ["y"] (.vv ⟨.str "a", some "x", [], ["y"]⟩) =
    .ok ⟨.str "a", some "x__rule__r2", [], ["y__rule__r2"]⟩ := rfl

/-- C49, an instance for rules: the hypotheses hold of the example rules. -/
example : GoodRule exCompReg [(⟨'=', "g"⟩, .chunk (exGoal (exVar "x")))] [(⟨'=', "g"⟩, .chunk (exGoal (exLit "c")))] ∧
    ∀ u ∈ ["y"], ∀ s, u ≠ "=" ++ s := by
  refine ⟨⟨?_, ?_⟩, ?_⟩
  · intro k v h _
    simp only [List.mem_singleton, Prod.mk.injEq] at h
    exact ⟨_, h.2, by simp [exGoal], ["state"], rfl, by simp [exGoal]⟩
  · intro k v h _
    simp only [List.mem_singleton, Prod.mk.injEq] at h
    exact ⟨_, h.2, by simp [exGoal], ["state"], rfl, by simp [exGoal]⟩
  · intro u hu s h
    simp only [List.mem_singleton] at hu
    subst hu
    have := congrArg String.toList h
    simp at this

/-! ## C50 -/

theorem anyKey_ok {α : Type} {f : Key → α → Except PyErr Bool} {l : List (Key × α)}
    (hf : ∀ k v, (k, v) ∈ l → ∃ b, f k v = .ok b) :
    ∃ b, anyKey f l = .ok b ∧ (b = true ↔ ∃ k v, (k, v) ∈ l ∧ f k v = .ok true) := by
  induction l with
  | nil => exact ⟨false, rfl, by simp⟩
  | cons x r ih =>
    obtain ⟨k, v⟩ := x
    obtain ⟨b, hb, hi⟩ := ih (fun k v h => hf k v (List.mem_cons_of_mem _ h))
    obtain ⟨c, hc⟩ := hf k v List.mem_cons_self
    cases c with
    | true => exact ⟨true, by simp [anyKey, hc], by simp only [true_iff]; exact ⟨k, v, List.mem_cons_self, hc⟩⟩
    | false =>
      refine ⟨b, by simp [anyKey, hc, hb], hi.trans ⟨?_, ?_⟩⟩
      · rintro ⟨k', v', hm, h⟩; exact ⟨k', v', List.mem_cons_of_mem _ hm, h⟩
      · rintro ⟨k', v', hm, h⟩
        rcases List.mem_cons.1 hm with e | hm
        · cases e; rw [hc] at h; cases h
        · exact ⟨k', v', hm, h⟩

theorem requests_iff (b : String) (rhs : List (Key × RVal)) : requests b rhs = true ↔ RequestsBuf rhs b := by
  simp only [requests, List.any_eq_true, decide_eq_true_eq, RequestsBuf]
  constructor
  · rintro ⟨⟨k, v⟩, hm, rfl⟩; exact ⟨v, hm⟩
  · rintro ⟨v, hm⟩; exact ⟨_, hm, rfl⟩

theorem isDict_ok (one q : String × String) (d : List (String × String)) :
    ∃ b, LVal.isDict one (.dict (q :: d)) = .ok b ∧ (b = true ↔ q :: d = [one]) := by
  cases d with
  | nil => exact ⟨q == one, rfl, by simp⟩
  | cons x r => exact ⟨false, rfl, by simp⟩

theorem unsafeCond_ok {visual : Bool} {b : String} {lhs : List (Key × LVal)} (hq : QueriesAreDicts lhs) :
    ∃ c, anyKey (unsafeCond visual b) lhs = .ok c ∧
      (c = true ↔ QueriesOther lhs b ∨ (visual = true ∧ TestsBuf lhs b)) := by
  obtain ⟨c, hc, hi⟩ := anyKey_ok (f := unsafeCond visual b) (l := lhs) (by
    intro k v hm
    by_cases hk : k = ⟨'?', b⟩
    · subst hk
      obtain ⟨q, d, rfl, _⟩ := hq b v hm
      obtain ⟨e, he, _⟩ := isDict_ok ("state", "busy") q d
      exact ⟨!e, by simp [unsafeCond, he, Except.map]⟩
    · exact ⟨_, by simp only [unsafeCond, hk, if_false]; rfl⟩)
  refine ⟨c, hc, hi.trans ⟨?_, ?_⟩⟩
  · rintro ⟨k, v, hm, h⟩
    by_cases hk : k = ⟨'?', b⟩
    · subst hk
      obtain ⟨q, d, rfl, hnd⟩ := hq b v hm
      obtain ⟨e, he, hei⟩ := isDict_ok ("state", "busy") q d
      simp only [unsafeCond, if_true, he, Except.map, Except.ok.injEq] at h
      have hne : q :: d ≠ [("state", "busy")] := by
        intro hh; rw [hei.2 hh] at h; simp at h
      refine Or.inl ⟨q :: d, ?_⟩
      by_cases hq' : q = ("state", "busy")
      · cases d with
        | nil => exact absurd (by rw [hq']) hne
        | cons x r =>
          refine ⟨x, hm, by simp, fun hx => ?_⟩
          rw [hq', hx] at hnd
          simp at hnd
      · exact ⟨q, hm, by simp, hq'⟩
    · simp only [unsafeCond, hk, if_false, Except.ok.injEq, Bool.and_eq_true, decide_eq_true_eq] at h
      exact Or.inr ⟨h.1, v, h.2 ▸ hm⟩
  · rintro (⟨d, q, hm, hqd, hne⟩ | ⟨hv, v, hm⟩)
    · obtain ⟨q', d', e, hnd⟩ := hq b _ hm
      cases e
      obtain ⟨e, he, hei⟩ := isDict_ok ("state", "busy") q' d'
      refine ⟨_, _, hm, ?_⟩
      have : e = false := by
        rw [Bool.eq_false_iff]
        intro ht
        rw [hei.1 ht] at hqd
        exact hne (by simpa using hqd)
      simp [unsafeCond, he, Except.map, this]
    · exact ⟨_, v, hm, by simp [unsafeCond, hv]⟩

theorem errorCond_ok {b : String} {lhs : List (Key × LVal)} (hq : QueriesAreDicts lhs) :
    ∃ c, anyKey (errorCond b) lhs = .ok c ∧ (c = true ↔ QueriesOnlyError lhs b) := by
  obtain ⟨c, hc, hi⟩ := anyKey_ok (f := errorCond b) (l := lhs) (by
    intro k v hm
    by_cases hk : k = ⟨'?', b⟩
    · subst hk
      obtain ⟨q, d, rfl, _⟩ := hq b v hm
      obtain ⟨e, he, _⟩ := isDict_ok ("state", "error") q d
      exact ⟨e, by simp [errorCond, he]⟩
    · exact ⟨false, by simp only [errorCond, hk, if_false]⟩)
  refine ⟨c, hc, hi.trans ⟨?_, fun h => ⟨_, _, h, by simp [errorCond, LVal.isDict]⟩⟩⟩
  rintro ⟨k, v, hm, h⟩
  by_cases hk : k = ⟨'?', b⟩
  · subst hk
    obtain ⟨q, d, rfl, _⟩ := hq b v hm
    obtain ⟨e, he, hei⟩ := isDict_ok ("state", "error") q d
    simp only [errorCond, if_true, he, Except.ok.injEq] at h
    have := hei.1 h
    rw [this] at hm
    exact hm
  · simp [errorCond, hk] at h

theorem unsafeKey_ok (bufs : List (String × CBuf)) {lhs2 : List (Key × LVal)} (rhs2 : List (Key × RVal))
    (hq : QueriesAreDicts lhs2) (k : Key) :
    ∃ c, unsafeKey bufs lhs2 rhs2 k = .ok c ∧ (c = true ↔ k.code = '+' ∧
      ((RequestsBuf rhs2 k.name ∧ ¬ OfClass bufs k.name [.decmem]) ∨
       (QueriesOther lhs2 k.name ∧ OfClass bufs k.name [.motor, .visual, .visualLocation]) ∨
       (TestsBuf lhs2 k.name ∧ OfClass bufs k.name [.visual, .visualLocation]) ∨
       (QueriesOnlyError lhs2 k.name ∧ OfClass bufs k.name [.decmem]))) := by
  by_cases hk : k.code = '+'
  swap
  · exact ⟨false, by simp [unsafeKey, hk], by simp [hk]⟩
  have hcl : ∀ l, OfClass bufs k.name l ↔ ∃ c ∈ l, (alook k.name bufs).map CBuf.cls = some c := by
    intro l
    constructor
    · rintro ⟨f, hf, hm⟩; exact ⟨f.cls, hm, by rw [hf]; rfl⟩
    · rintro ⟨c, hm, h⟩
      rcases ha : alook k.name bufs with _ | f
      · rw [ha] at h; cases h
      · rw [ha] at h; cases h; exact ⟨f, ha, hm⟩
  simp only [unsafeKey, hk, if_true, hcl]
  generalize (alook k.name bufs).map CBuf.cls = cls
  obtain ⟨cm, hm, him⟩ := unsafeCond_ok (visual := false) (b := k.name) hq
  obtain ⟨cv, hv, hiv⟩ := unsafeCond_ok (visual := true) (b := k.name) hq
  obtain ⟨ce, he, hie⟩ := errorCond_ok (b := k.name) hq
  simp only [Bool.false_eq_true, false_and, or_false] at him
  simp only [true_and] at hiv
  have hreq := requests_iff k.name rhs2
  cases hr : requests k.name rhs2 with
  | true =>
    have hR := hreq.1 hr
    rcases cls with _ | c
    · exact ⟨true, by simp, by simp [hR]⟩
    · cases c
      · exact ⟨true, by simp, by simp [hR]⟩
      · exact ⟨ce, by simpa using he, by simp [hie]⟩
      · exact ⟨true, by simp, by simp [hR]⟩
      · exact ⟨true, by simp, by simp [hR]⟩
      · exact ⟨true, by simp, by simp [hR]⟩
  | false =>
    have hR : ¬ RequestsBuf rhs2 k.name := fun h => by rw [hreq.2 h] at hr; cases hr
    rcases cls with _ | c
    · exact ⟨false, by simp, by simp [hR]⟩
    · cases c
      · exact ⟨false, by simp, by simp [hR]⟩
      · exact ⟨ce, by simpa using he, by simp [hie]⟩
      · exact ⟨cm, by simpa using hm, by simp [hR, him]⟩
      · exact ⟨cv, by simpa using hv, by simp [hR, hiv]⟩
      · exact ⟨cv, by simpa using hv, by simp [hR, hiv]⟩

/-- The check, exactly. -/
theorem check_ok (bufs : List (String × CBuf)) (lhs1 lhs2 : List (Key × LVal)) (rhs1 rhs2 : List (Key × RVal))
    (hq : QueriesAreDicts lhs2) :
    ∃ c, checkCompilation bufs ⟨.ok lhs1, .ok rhs1⟩ ⟨.ok lhs2, .ok rhs2⟩ = .ok c ∧
      (c = true ↔ ∃ b, UnsafeAt QueriesOnlyError bufs rhs1 lhs2 rhs2 b) := by
  obtain ⟨c, hc, hi⟩ := anyKey_ok (f := fun k (_ : RVal) => unsafeKey bufs lhs2 rhs2 k) (l := rhs1)
    (fun k v _ => by obtain ⟨c, h, _⟩ := unsafeKey_ok bufs rhs2 hq k; exact ⟨c, h⟩)
  refine ⟨c, hc, hi.trans ⟨?_, ?_⟩⟩
  · rintro ⟨⟨code, name⟩, v, hm, h⟩
    obtain ⟨c', h', hi'⟩ := unsafeKey_ok bufs rhs2 hq ⟨code, name⟩
    rw [h'] at h
    simp only [Except.ok.injEq] at h
    obtain ⟨hcode, hu⟩ := hi'.1 h
    simp only at hcode
    subst hcode
    exact ⟨name, ⟨v, hm⟩, hu⟩
  · rintro ⟨b, ⟨v, hm⟩, hu⟩
    obtain ⟨c', h', hi'⟩ := unsafeKey_ok bufs rhs2 hq ⟨'+', b⟩
    exact ⟨_, v, hm, by rw [h', hi'.2 ⟨rfl, hu⟩]⟩

/-- The whole of C50. -/
def C50_full : Prop := ∀ (P : Py) (reg : Reg) (p : UParams) (rules : CRules) (r1 r2 : String) (sv : SlotVals)
  (bufs : List (String × CBuf)) (x1 x2 : CRule) (lhs1 lhs2 : List (Key × LVal)) (rhs1 rhs2 : List (Key × RVal)) (b : String),
  alook r1 rules = some x1 → alook r2 rules = some x2 → x1.body = ⟨.ok lhs1, .ok rhs1⟩ → x2.body = ⟨.ok lhs2, .ok rhs2⟩ →
  QueriesAreDicts lhs2 → UnsafeAt QueriesError bufs rhs1 lhs2 rhs2 b →
  compileRules P reg p rules r1 r2 sv bufs = (rules, .ok .blocked)

/-- C50 with a weaker clause for retrieval: a query for an error blocks compilation only if it asks nothing else. -/
theorem C50_partial (P : Py) (reg : Reg) (p : UParams) (rules : CRules) (r1 r2 : String) (sv : SlotVals)
    (bufs : List (String × CBuf)) (x1 x2 : CRule) (lhs1 lhs2 : List (Key × LVal)) (rhs1 rhs2 : List (Key × RVal)) (b : String)
    (h1 : alook r1 rules = some x1) (h2 : alook r2 rules = some x2) (e1 : x1.body = ⟨.ok lhs1, .ok rhs1⟩)
    (e2 : x2.body = ⟨.ok lhs2, .ok rhs2⟩) (hq : QueriesAreDicts lhs2)
    (hu : UnsafeAt QueriesOnlyError bufs rhs1 lhs2 rhs2 b) :
    compileRules P reg p rules r1 r2 sv bufs = (rules, .ok .blocked) := by
  obtain ⟨c, hc, hi⟩ := check_ok bufs lhs1 lhs2 rhs1 rhs2 hq
  have : newRule P reg r2 x1.body x2.body sv bufs = .ok Option.none := by
    simp only [newRule, e1, e2, hc, Except.bind, hi.2 ⟨b, hu⟩, if_true]
  simp only [compileRules, h1, h2, this]

/-- Nothing else is blocked: if compilation is blocked, one of these cases holds, or a chunk retrieved for the first rule is still in
its buffer. -/
theorem C50_only (P : Py) (reg : Reg) (p : UParams) (rules : CRules) (r1 r2 : String) (sv : SlotVals)
    (bufs : List (String × CBuf)) (x1 x2 : CRule) (lhs1 lhs2 : List (Key × LVal)) (rhs1 rhs2 : List (Key × RVal))
    (h1 : alook r1 rules = some x1) (h2 : alook r2 rules = some x2) (e1 : x1.body = ⟨.ok lhs1, .ok rhs1⟩)
    (e2 : x2.body = ⟨.ok lhs2, .ok rhs2⟩) (hq : QueriesAreDicts lhs2)
    (hb : (compileRules P reg p rules r1 r2 sv bufs).2 = .ok .blocked) :
    (∃ b, UnsafeAt QueriesOnlyError bufs rhs1 lhs2 rhs2 b) ∨ StillRetrieved sv bufs := by
  obtain ⟨c, hc, hi⟩ := check_ok bufs lhs1 lhs2 rhs1 rhs2 hq
  by_cases hc' : c = true
  · exact Or.inl (hi.1 hc')
  right
  have hcf : c = false := Bool.eq_false_iff.2 hc'
  subst hcf
  have hn : newRule P reg r2 x1.body x2.body sv bufs = .ok Option.none := by
    simp only [compileRules, h1, h2] at hb
    rcases hn : newRule P reg r2 x1.body x2.body sv bufs with e | o
    · rw [hn] at hb; cases hb
    · cases o with
      | none => rfl
      | some new =>
        rw [hn] at hb
        obtain ⟨x, hx⟩ := nameLoop_total P.H p r1 r2 x1.utility new rules
        simp only [hx, Option.getD_some] at hb
        obtain ⟨i, _, _, hcs⟩ := nameLoop_pair hx
        rcases hcs with ⟨_, _, ho'⟩ | ⟨_, _, ⟨_, _, _, ho'⟩ | ⟨_, _, ho'⟩⟩ <;> (rw [ho'] at hb; cases hb)
  simp only [newRule, e1, e2, hc] at hn
  obtain ⟨_, hs, hn⟩ := except_bind_ok hn
  cases hs
  simp only [Bool.false_eq_true, if_false] at hn
  obtain ⟨sc, hs, hn⟩ := except_bind_ok hn
  cases sc with
  | some sc =>
    exfalso
    obtain ⟨_, _, hn⟩ := except_bind_ok hn
    obtain ⟨_, _, hn⟩ := except_bind_ok hn
    obtain ⟨_, _, hn⟩ := except_map_ok hn
    cases hn
  | none =>
    clear hn hb h1 h2 e1 e2
    have go : ∀ (sv : SlotVals) (sc : Scan), scanSlotVals bufs sv sc = .ok Option.none → StillRetrieved sv bufs := by
      intro sv
      induction sv with
      | nil => intro sc h; simp [scanSlotVals] at h
      | cons x r ih =>
        obtain ⟨b, i⟩ := x
        intro sc h
        have lift : StillRetrieved r bufs → StillRetrieved ((b, i) :: r) bufs := by
          rintro ⟨b', d, c, f, hm, hf⟩; exact ⟨b', d, c, f, List.mem_cons_of_mem _ hm, hf⟩
        cases i with
        | nothing => simp only [scanSlotVals] at h; exact lift (ih _ h)
        | dict d => simp only [scanSlotVals] at h; exact lift (ih _ h)
        | retr d c =>
          simp only [scanSlotVals] at h
          rcases ha : alook b bufs with _ | f
          · rw [ha] at h; cases h
          · rw [ha] at h
            simp only at h
            by_cases hf : f.full = true
            · exact ⟨b, d, c, f, List.mem_cons_self, ha, hf⟩
            · rw [if_neg hf] at h; exact lift (ih _ h)
    exact go sv _ hs

/-- A rule that fires when the retrieval has failed and the buffer is empty. -/
def exError (l : List (String × String)) : Body :=
  ⟨.ok [(⟨'?', "retrieval"⟩, .dict l)], .ok [(⟨'=', "g"⟩, .chunk (exGoal (exLit "c")))]⟩

/-- C50 is false: the second rule queries the retrieval for an error and for something else, and the rules are compiled. -/
theorem C50_refuted : ¬ C50_full := by
  obtain ⟨H, _⟩ := exists_collisionFree
  intro h
  have := h (exPy H) exCompReg exCompParams (exTwo exRetrieve (exError [("state", "error"), ("buffer", "empty")])) "r1" "r2" [] exCBufs
    _ _ _ _ _ _ "retrieval" rfl rfl rfl rfl
    (by
      intro b v hm
      simp only [List.mem_singleton, Prod.mk.injEq] at hm
      exact ⟨_, _, hm.2, by decide⟩)
    ⟨⟨_, List.mem_cons_self⟩, Or.inr (Or.inr (Or.inr ⟨⟨_, List.mem_cons_self, List.mem_cons_self⟩, ⟨_, rfl, by decide⟩⟩))⟩
  have e : (compileRules (exPy H) exCompReg exCompParams (exTwo exRetrieve (exError [("state", "error"), ("buffer", "empty")])) "r1" "r2" []
    exCBufs).2 = .ok (.made "r1 and r2" false) := rfl
  rw [this] at e
  cases e

/-- C50, an instance: a query for an error and nothing else. -/
example (H : PyHash) : (compileRules (exPy H) exCompReg exCompParams (exTwo exRetrieve (exError [("state", "error")])) "r1" "r2" []
    exCBufs) = (exTwo exRetrieve (exError [("state", "error")]), .ok .blocked) := rfl

/-- The instance meets the hypotheses of `C50_partial`. -/
example : UnsafeAt QueriesOnlyError exCBufs [(⟨'+', "retrieval"⟩, .chunk (exGoal (exLit "b")))]
    [(⟨'?', "retrieval"⟩, .dict [("state", "error")])] [] "retrieval" :=
  ⟨⟨_, List.mem_cons_self⟩, Or.inr (Or.inr (Or.inr ⟨List.mem_cons_self, ⟨_, rfl, by decide⟩⟩))⟩

end Verif.Props
