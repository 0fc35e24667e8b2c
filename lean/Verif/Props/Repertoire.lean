import Verif.Lemmas.Repertoire
import Verif.Props.Storage
/-! # The rules of a model over time (properties C79 and C80) -/
namespace Verif.Props
open Verif Verif.Spec

variable {s s' : Sim} {C : Cfg} {w : Mach} {args : Option EnvArgs} {t : ℚ} {n : String}

/-! ## C79 -/

/-- C79: whatever a simulation does from any of its states on, all that happens to the rules and to the list of rules to be tried is a sequence of steps of four kinds: a reward changes
utilities, a new rule is made of two rules and put at the end of the list, a rule is made again and put at the end of the list, or nothing of the kind. -/
theorem C79_practice (h : Reachable C w args t s) (hg : GoesOn C s s') : Practice C s.w s'.w := regime_goesOn (atoms_practice C).regime h hg

/-- C79: a rule that a model has at one time it has at every later time, with the same conditions, actions and reward; without learning also with the same utility. -/
theorem C79_kept (h : Reachable C w args t s) (hg : GoesOn C s s') {r : CRule} (hr : HasRule s.w n r) : ∃ r', HasRule s'.w n r' ∧ AsBefore C r r' := practice_kept (C79_practice h hg) hr

/-- C79: every rule was there at the beginning, or was made by compilation, perhaps in several turns, of rules that were there at the beginning. -/
theorem C79_stems (h : Reachable C w args t s) {r : CRule} (hr : HasRule s.w n r) : Stems C w n r.body := practice_stems (regime_reachable (atoms_practice C).regime h) hr

/-- C79: without compilation no rule is ever added, and the list of rules to be tried never changes. -/
theorem C79_closed (hc : C.compilation = false) (h : Reachable C w args t s) (hg : GoesOn C s s') :
    s'.w.ordered = s.w.ordered ∧ ∀ n r', HasRule s'.w n r' → ∃ r, HasRule s.w n r ∧ AsBefore C r r' :=
  ⟨(practice_off (n := "") hc (C79_practice h hg)).1, fun _ => (practice_off hc (C79_practice h hg)).2⟩

/-- C79: the list of rules to be tried is only ever added to, at the end. -/
theorem C79_list (h : Reachable C w args t s) (hg : GoesOn C s s') : s.w.ordered <+: s'.w.ordered := practice_prefix (C79_practice h hg)

/-- C79: the rules on the list are at all times exactly those that the model has; so no rule is left out, and none is looked for in vain. -/
theorem C79_tried (hw : AllTried w) (h : Reachable C w args t s) : AllTried s.w := practice_tried (regime_reachable (atoms_practice C).regime h) hw

/-! ## C80 -/

/-- Without noise the first rule that matches is selected. -/
theorem selectC_first {H : PyHash} {bufs : Faces} {p : UParams} {rules : CRules} {draws : ℕ → ℚ} (hp : p.noisy = false) (names : List String) :
    ∀ k n u, selectC H bufs p rules BV.init draws k names Option.none = .ok (some (n, u)) →
      ∃ l1 l2, names = l1 ++ n :: l2 ∧ (∀ m ∈ l1, Fails H bufs rules m) ∧ ∃ bv, Spec.Holds H bufs rules n bv := by
  have hq : (!p.subsymbolic || decide (p.utilityNoise = 0)) = true := by
    unfold UParams.noisy at hp
    cases h1 : p.subsymbolic <;> cases h2 : decide (p.utilityNoise = 0) <;> simp_all
  induction names with
  | nil => intro k n u h; cases h
  | cons name names ih =>
    intro k n u h
    simp only [selectC] at h
    cases hr : alook name rules with
    | none => rw [hr] at h; cases h
    | some rule =>
    simp only [hr] at h
    cases hl : rule.body.lhs with
    | error x => rw [hl] at h; cases h
    | ok lhs =>
    simp only [hl] at h
    cases hd : utilityDraw p (draws k) with
    | error x => rw [hd] at h; cases h
    | ok nz =>
    simp only [hd, Bool.false_eq_true, if_false, hq, if_true] at h
    cases ht : lhsTest H bufs lhs BV.init with
    | error x => rw [ht] at h; cases h
    | ok o =>
      cases o with
      | none =>
        rw [ht] at h
        obtain ⟨l1, l2, h1, h2, h3⟩ := ih _ n u h
        refine ⟨name :: l1, l2, by rw [h1]; rfl, fun m hm => ?_, h3⟩
        rcases List.mem_cons.1 hm with rfl | hm
        · exact ⟨rule, hr, .inl ⟨lhs, hl, ht⟩⟩
        · exact h2 m hm
      | some bv =>
        rw [ht] at h
        cases h
        exact ⟨[], names, rfl, by simp, bv, rule, hr, .inl ⟨lhs, hl, ht⟩⟩

/-- If conflict resolution took place in this state, a rule would be selected, and no rule that matches has a higher utility. -/
def BestChosen (C : Cfg) (w : Mach) : Prop := ∀ n r, (selectIn C { w with bv := BV.init }).2 = .ok (some (n, r)) → HasRule w n r ∧ (∃ bv, Spec.Holds C.P.H w.faces w.rules n bv) ∧
  ∀ m r' bv, HasRule w m r' → Spec.Holds C.P.H w.faces w.rules m bv → r'.utility ≤ r.utility

/-- C80 in full: without noise, conflict resolution selects the best of the rules that match in every state of every simulation of a model whose rules are in the right order at the
beginning. -/
def C80_full : Prop := ∀ (C : Cfg) (w : Mach) (args : Option EnvArgs) (t : ℚ), C.up.noisy = false → AllTried w → BestFirst w → ∀ s : Sim, Reachable C w args t s → BestChosen C s.w

theorem testOf_clash {H : PyHash} {bufs : Faces} {rules : CRules} {bv : BV} (h1 : Fails H bufs rules n) (h2 : Spec.Holds H bufs rules n bv) : False := by
  obtain ⟨r1, a1, h1⟩ := h1
  obtain ⟨r2, a2, h2⟩ := h2
  rw [a1] at a2
  cases a2
  rcases h1 with ⟨l1, b1, c1⟩ | ⟨e, _, c1⟩ <;> rcases h2 with ⟨l2, b2, c2⟩ | ⟨e', _, c2⟩
  · rw [b1] at b2; cases b2; rw [c1] at c2; cases c2
  · cases c2
  · cases c1
  · cases c2

theorem bestChosen_of (hp : C.up.noisy = false) (ha : AllTried w) (ho : BestFirst w) : BestChosen C w := by
  intro n r h
  unfold selectIn at h
  dsimp only at h
  cases hs : selectC C.P.H w.faces C.up w.rules BV.init (C.udraws w.tick) 0 w.ordered Option.none with
  | error x => simp only [show Mach.faces { w with bv := BV.init } = w.faces from rfl, hs] at h; cases h
  | ok o =>
    simp only [show Mach.faces { w with bv := BV.init } = w.faces from rfl, hs] at h
    cases o with
    | none => cases h
    | some o =>
      obtain ⟨n', u⟩ := o
      dsimp only at h
      cases hr : alook n' w.rules with
      | none => rw [hr] at h; cases h
      | some rule =>
        rw [hr] at h
        cases h
        obtain ⟨l1, l2, h1, h2, h3⟩ := selectC_first hp _ _ _ _ hs
        refine ⟨hr, h3, fun m r' bv hm hh => ?_⟩
        have hin := (ha m).2 ⟨r', hm⟩
        unfold BestFirst at ho
        rw [h1] at hin ho
        rcases List.mem_append.1 hin with hin | hin
        · exact (testOf_clash (h2 m hin) hh).elim
        · rcases List.mem_cons.1 hin with rfl | hin
          · have : r' = r := Option.some.inj (hm.symm.trans hr)
            rw [this]
          · exact (List.pairwise_cons.1 (List.pairwise_append.1 ho).2.1).1 m hin r r' hr hm

/-- C80, what holds: without learning, if no rule has a negative utility and none that is named like a compiled rule a positive one, rules are tried in the order of their utilities in
every state of a simulation, and conflict resolution selects the best of those that match. Missing: models with learning (see `C80_refuted`), and models without learning in which rules are compiled
and a rule has a negative utility (see `C80_compiled_refuted`). -/
theorem C80_partial (hp : C.up.noisy = false) (hl : C.up.utilityLearning = false) (ha : AllTried w) (ho : BestFirst w) (h0 : ∀ n r, HasRule w n r → 0 ≤ r.utility)
    (hm : ∀ n r r1 r2, HasRule w n r → NamedAfter n r1 r2 → r.utility = 0) (h : Reachable C w args t s) : BestFirst s.w ∧ BestChosen C s.w := by
  have hr := (practice_ranked hl (regime_reachable (atoms_practice C).regime h) ⟨ho, fun n hn => (ha n).1 hn, h0, hm⟩).order
  exact ⟨hr, bestChosen_of hp (C79_tried ha h) hr⟩

/-- C80 without compilation and learning: the same for all utilities. -/
theorem C80_plain_partial (hp : C.up.noisy = false) (hl : C.up.utilityLearning = false) (hc : C.compilation = false) (ha : AllTried w) (ho : BestFirst w) (h : Reachable C w args t s) :
    BestFirst s.w ∧ BestChosen C s.w := by
  have hr : BestFirst s.w := by
    have hw := regime_reachable (atoms_practice C).regime h
    unfold BestFirst
    rw [(practice_off (n := "") hc hw).1]
    refine ho.imp fun {a b} hab r r' h1 h2 => ?_
    obtain ⟨ra, ha, ha'⟩ := (practice_off hc hw).2 r h1
    obtain ⟨rb, hb, hb'⟩ := (practice_off hc hw).2 r' h2
    rw [ha'.utility hl, hb'.utility hl]
    exact hab ra rb ha hb
  exact ⟨hr, bestChosen_of hp (C79_tried ha h) hr⟩

/-- C80 in general: what is selected without noise is the first rule on the list that matches; the list begins with that of the beginning. -/
theorem C80_first (hp : C.up.noisy = false) (h : Reachable C w args t s) {r : CRule} (hr : (selectIn C { s.w with bv := BV.init }).2 = .ok (some (n, r))) :
    ∃ l1 l2, s.w.ordered = l1 ++ n :: l2 ∧ (∀ m ∈ l1, Fails C.P.H s.w.faces s.w.rules m) ∧ w.ordered <+: s.w.ordered := by
  have hpre := practice_prefix (regime_reachable (atoms_practice C).regime h)
  unfold selectIn at hr
  dsimp only at hr
  cases hs : selectC C.P.H s.w.faces C.up s.w.rules BV.init (C.udraws s.w.tick) 0 s.w.ordered Option.none with
  | error x => simp only [show Mach.faces { s.w with bv := BV.init } = s.w.faces from rfl, hs] at hr; cases hr
  | ok o =>
    simp only [show Mach.faces { s.w with bv := BV.init } = s.w.faces from rfl, hs] at hr
    cases o with
    | none => cases hr
    | some o =>
      obtain ⟨n', u⟩ := o
      dsimp only at hr
      cases hk : alook n' s.w.rules with
      | none => rw [hk] at hr; cases hr
      | some rule =>
        rw [hk] at hr
        cases hr
        obtain ⟨l1, l2, h1, h2, h3⟩ := selectC_first hp _ _ _ _ hs
        exact ⟨l1, l2, h1, h2, hpre⟩

/-- The rule is the best one of `names` and of `best`, with noise. -/
def Topmost (H : PyHash) (bufs : Faces) (rules : CRules) (draws : ℕ → ℚ) (k : ℕ) (names : List String) (best : Option (String × ℚ)) (n : String) (u : ℚ) : Prop :=
  (best = some (n, u) ∧ ∀ j m r bv, names[j]? = some m → alook m rules = some r → Spec.Holds H bufs rules m bv → r.utility + draws (k + j) < u) ∨
  (∃ i r bv, names[i]? = some n ∧ alook n rules = some r ∧ Spec.Holds H bufs rules n bv ∧ u = r.utility + draws (k + i) ∧ (∀ m v, best = some (m, v) → v ≤ u) ∧
    ∀ j m r bv, names[j]? = some m → alook m rules = some r → Spec.Holds H bufs rules m bv → r.utility + draws (k + j) ≤ u ∧ (i < j → r.utility + draws (k + j) < u))

/-- With noise all rules are tried, and the best one so far is kept. -/
theorem selectC_best {H : PyHash} {bufs : Faces} {p : UParams} {rules : CRules} {draws : ℕ → ℚ} (hp : p.noisy = true) (names : List String) :
    ∀ k best n u, selectC H bufs p rules BV.init draws k names best = .ok (some (n, u)) → Topmost H bufs rules draws k names best n u := by
  have hq : (!p.subsymbolic || decide (p.utilityNoise = 0)) = false := by
    unfold UParams.noisy at hp
    cases h1 : p.subsymbolic <;> cases h2 : decide (p.utilityNoise = 0) <;> simp_all
  obtain ⟨hsub, hno⟩ : p.subsymbolic = true ∧ p.utilityNoise ≠ 0 := by
    unfold UParams.noisy at hp
    simpa using hp
  induction names with
  | nil => intro k best n u h; cases h; exact .inl ⟨rfl, fun j m r bv h => by cases h⟩
  | cons name names ih =>
    intro k best n u h
    simp only [selectC] at h
    cases hr : alook name rules with
    | none => rw [hr] at h; cases h
    | some rule =>
    simp only [hr] at h
    cases hl : rule.body.lhs with
    | error x => rw [hl] at h; cases h
    | ok lhs =>
    simp only [hl] at h
    have hd : ∀ nz, utilityDraw p (draws k) = .ok nz → nz = draws k := fun nz hd => by
      unfold utilityDraw at hd
      rw [if_pos hsub] at hd
      split at hd
      · cases hd
      · cases hd; rfl
    cases hdr : utilityDraw p (draws k) with
    | error x => rw [hdr] at h; cases h
    | ok nz =>
    obtain rfl := hd nz hdr
    simp only [hdr, hq, Bool.false_eq_true, if_false] at h
    have hk : ∀ j, k + (j + 1) = k + 1 + j := fun j => by omega
    -- the rule at hand does not count
    have skip : selectC H bufs p rules BV.init draws (k + 1) names best = .ok (some (n, u)) →
        (∀ r bv, alook name rules = some r → Spec.Holds H bufs rules name bv → ∃ m v, best = some (m, v) ∧ r.utility + draws k < v) → Topmost H bufs rules draws k (name :: names) best n u := fun h hno => by
      rcases ih _ _ _ _ h with ⟨h1, h2⟩ | ⟨i, r, bv, h1, h2, h3, h4, h5, h6⟩
      · refine .inl ⟨h1, fun j m r bv hj hm hh => ?_⟩
        cases j with
        | zero =>
          cases hj
          obtain ⟨m', v, hb, hv⟩ := hno r bv hm hh
          rw [h1] at hb; cases hb; exact hv
        | succ j => rw [hk]; exact h2 j m r bv hj hm hh
      · refine .inr ⟨i + 1, r, bv, h1, h2, h3, by rw [hk]; exact h4, h5, fun j m r bv hj hm hh => ?_⟩
        cases j with
        | zero =>
          cases hj
          obtain ⟨m', v, hb, hv⟩ := hno r bv hm hh
          exact ⟨hv.le.trans (h5 m' v hb), fun h => by omega⟩
        | succ j =>
          rw [hk]
          obtain ⟨a, b⟩ := h6 j m r bv hj hm hh
          exact ⟨a, fun h => b (by omega)⟩
    refine (?_ : ∀ c : Bool, (c = true → ∃ m v, best = some (m, v) ∧ rule.utility + draws k < v) → (c = false → ∀ m v, best = some (m, v) → v ≤ rule.utility + draws k) →
        (if c = true then selectC H bufs p rules BV.init draws (k + 1) names best else
          match lhsTest H bufs lhs BV.init with
          | .error e => .error e
          | .ok Option.none => selectC H bufs p rules BV.init draws (k + 1) names best
          | .ok (some _) => selectC H bufs p rules BV.init draws (k + 1) names (some (name, rule.utility + draws k))) = .ok (some (n, u)) →
        Topmost H bufs rules draws k (name :: names) best n u) _ ?_ ?_ h
    rotate_left
    · intro hc
      split at hc
      · exact ⟨_, _, rfl, of_decide_eq_true hc⟩
      · cases hc
    · intro hc m v hb
      subst hb
      exact not_lt.1 (of_decide_eq_false hc)
    intro c hc hbest h
    cases c with
    | true =>
      refine skip h fun r bv hm _ => ?_
      rw [hr] at hm; cases hm
      exact hc rfl
    | false =>
      replace hbest := hbest rfl
      rw [if_neg (by decide)] at h
      cases ht : lhsTest H bufs lhs BV.init with
      | error x => rw [ht] at h; cases h
      | ok o =>
        cases o with
        | none =>
          rw [ht] at h
          exact skip h fun r bv hm hh => (testOf_clash ⟨rule, hr, .inl ⟨lhs, hl, ht⟩⟩ hh).elim
        | some bv0 =>
          rw [ht] at h
          have hhold : Spec.Holds H bufs rules name bv0 := ⟨rule, hr, .inl ⟨lhs, hl, ht⟩⟩
          rcases ih _ _ _ _ h with ⟨h1, h2⟩ | ⟨i, r, bv, h1, h2, h3, h4, h5, h6⟩
          · cases h1
            refine .inr ⟨0, rule, bv0, rfl, hr, hhold, rfl, hbest, fun j m r bv hj hm hh => ?_⟩
            cases j with
            | zero => cases hj; rw [hr] at hm; cases hm; exact ⟨le_rfl, fun h => by omega⟩
            | succ j => rw [hk]; exact ⟨(h2 j m r bv hj hm hh).le, fun _ => h2 j m r bv hj hm hh⟩
          · have hle := h5 _ _ rfl
            refine .inr ⟨i + 1, r, bv, h1, h2, h3, by rw [hk]; exact h4, fun m v hb => (hbest m v hb).trans hle, fun j m r bv hj hm hh => ?_⟩
            cases j with
            | zero => cases hj; rw [hr] at hm; cases hm; exact ⟨hle, fun h => by omega⟩
            | succ j =>
              rw [hk]
              obtain ⟨a, b⟩ := h6 j m r bv hj hm hh
              exact ⟨a, fun h => b (by omega)⟩

/-- C80 with noise: each turn of a rule on the list has its own noise. The rule that is selected matches, and at one of its turns its utility with the noise is not lower than that of any other
rule that matches, at any turn; of rules with equal utilities the last one on the list is selected. If the list is complete at the beginning, this includes all rules that there are. -/
theorem C80_noisy (hp : C.up.noisy = true) (ha : AllTried w) (h : Reachable C w args t s) {r : CRule} (hr : (selectIn C { s.w with bv := BV.init }).2 = .ok (some (n, r))) :
    HasRule s.w n r ∧ (∃ bv, Spec.Holds C.P.H s.w.faces s.w.rules n bv) ∧ ∃ i, s.w.ordered[i]? = some n ∧
      ∀ m r' bv, HasRule s.w m r' → Spec.Holds C.P.H s.w.faces s.w.rules m bv → (∃ j : ℕ, s.w.ordered[j]? = some m) ∧
        ∀ j : ℕ, s.w.ordered[j]? = some m → r'.utility + C.udraws s.w.tick j ≤ r.utility + C.udraws s.w.tick i ∧ (i < j → r'.utility + C.udraws s.w.tick j < r.utility + C.udraws s.w.tick i) := by
  have htr := C79_tried ha h
  unfold selectIn at hr
  dsimp only at hr
  cases hs : selectC C.P.H s.w.faces C.up s.w.rules BV.init (C.udraws s.w.tick) 0 s.w.ordered Option.none with
  | error x => simp only [show Mach.faces { s.w with bv := BV.init } = s.w.faces from rfl, hs] at hr; cases hr
  | ok o =>
    simp only [show Mach.faces { s.w with bv := BV.init } = s.w.faces from rfl, hs] at hr
    cases o with
    | none => cases hr
    | some o =>
      obtain ⟨n', u⟩ := o
      dsimp only at hr
      cases hk : alook n' s.w.rules with
      | none => rw [hk] at hr; cases hr
      | some rule =>
        rw [hk] at hr
        cases hr
        rcases selectC_best hp _ _ _ _ _ hs with ⟨h1, -⟩ | ⟨i, r1, bv, h1, h2, h3, rfl, -, h6⟩
        · cases h1
        · obtain rfl : r1 = r := Option.some.inj (h2.symm.trans hk)
          refine ⟨hk, ⟨bv, h3⟩, i, h1, fun m r' bv' hm hh => ⟨?_, fun j hj => ?_⟩⟩
          · exact List.mem_iff_getElem?.1 ((htr m).2 ⟨r', hm⟩)
          · simpa using h6 j m r' bv' hj hm hh

/-! ## Examples -/

/-- A model with two rules that fire in turn. -/
def exTurns (u : ℚ) : Mach :=
  { exMach exCompReg [("g", { exBuf .goal with data := [exGoal (exLit "a")], dm := some 0 })] with
    mems := [⟨[], [], [], []⟩],
    rules := [("go", ⟨exChange (exLit "a") (exLit "b"), u, Option.none⟩), ("come", ⟨exChange (exLit "b") (exLit "a"), u, Option.none⟩)],
    ordered := ["go", "come"] }

/-- Compilation is on. -/
noncomputable abbrev exLearnerC : Cfg := { exFullC with compilation := true, up := exCompParams }

/-- The names of the rules, and the list. -/
def namesOf (s : Sim) : List String × List String := (s.w.rules.map Prod.fst, s.w.ordered)

/-- A rule is selected although this one matches and has a higher utility. -/
noncomputable def leftAside (C : Cfg) (m : String) (s : Sim) : Bool :=
  match (selectIn C { s.w with bv := BV.init }).2, alook m s.w.rules with
  | .ok (some (_, r)), some r' => decide (r.utility < r'.utility) && (match r'.body.lhs with | .ok lhs => (match lhsTest C.P.H s.w.faces lhs BV.init with | .ok (some _) => true | _ => false) | _ => false)
  | _, _ => false

theorem leftAside_spec {m : String} (h : leftAside C m s = true) : ¬ BestChosen C s.w := by
  intro hb
  unfold leftAside at h
  split at h
  · rename_i n r r' h1 h2
    obtain ⟨ha, h⟩ := Bool.and_eq_true_iff.1 h
    split at h
    · rename_i lhs hl
      split at h
      · rename_i bv ht
        have := (hb n r h1).2.2 m r' bv h2 ⟨r', h2, .inl ⟨lhs, hl, ht⟩⟩
        exact absurd (of_decide_eq_true ha) (not_lt.2 this)
      · cases h
    · cases h
  · cases h

theorem exTurns_tried (u : ℚ) : AllTried (exTurns u) := by
  intro n
  show n ∈ ["go", "come"] ↔ _
  rw [List.mem_cons, List.mem_singleton]
  constructor
  · rintro (rfl | rfl)
    · exact ⟨_, rfl⟩
    · exact ⟨_, rfl⟩
  · rintro ⟨r, h⟩
    unfold HasRule exTurns alook at h
    split at h
    · rename_i e; exact .inl e.symm
    · unfold alook at h
      split at h
      · rename_i e; exact .inr e.symm
      · cases h

theorem exTurns_utility {u : ℚ} {r : CRule} (h : HasRule (exTurns u) n r) : r.utility = u := by
  unfold HasRule exTurns alook at h
  split at h
  · cases h; rfl
  · unfold alook at h
    split at h
    · cases h; rfl
    · cases h

theorem exTurns_order (u : ℚ) : BestFirst (exTurns u) :=
  List.pairwise_cons.2 ⟨fun b _ r r' h1 h2 => by rw [exTurns_utility h1, exTurns_utility h2], List.pairwise_singleton _ _⟩

/-- A rule is made of the two rules. -/
theorem exTurns_made : ∃ s, Reachable exLearnerC (exTurns 0) Option.none 0 s ∧ namesOf s = (["go", "come", "go and come"], ["go", "come", "go and come"]) := by
  have hb : (Stepped.state? (stepsOf exLearnerC 32 (Sim.init (exTurns 0) Option.none 0))).map namesOf = some (["go", "come", "go and come"], ["go", "come", "go and come"]) := by decide +kernel
  cases h1 : Stepped.state? (stepsOf exLearnerC 32 (Sim.init (exTurns 0) Option.none 0)) with
  | none => rw [h1] at hb; cases hb
  | some s =>
    rw [h1] at hb
    exact ⟨s, stepsOf_ok .init (state?_some h1), Option.some.inj hb⟩

/-- After a while the rule is made again; it is on the list twice. -/
theorem exTurns_twice : ∃ s, Reachable exLearnerC (exTurns 0) Option.none 0 s ∧ namesOf s = (["go", "come", "go and come", "come and go"], ["go", "come", "go and come", "come and go", "go and come"]) := by
  have hb : (Stepped.state? (stepsOf exLearnerC 64 (Sim.init (exTurns 0) Option.none 0))).map namesOf =
      some (["go", "come", "go and come", "come and go"], ["go", "come", "go and come", "come and go", "go and come"]) := by decide +kernel
  cases h1 : Stepped.state? (stepsOf exLearnerC 64 (Sim.init (exTurns 0) Option.none 0)) with
  | none => rw [h1] at hb; cases hb
  | some s =>
    rw [h1] at hb
    exact ⟨s, stepsOf_ok .init (state?_some h1), Option.some.inj hb⟩

/-- C79, an instance: the new rule stems from the two rules of the model, is tried, and stays. -/
example : ∃ s r, Reachable exLearnerC (exTurns 0) Option.none 0 s ∧ HasRule s.w "go and come" r ∧ (∀ r0, ¬ HasRule (exTurns 0) "go and come" r0) ∧ Stems exLearnerC (exTurns 0) "go and come" r.body ∧
    AllTried s.w ∧ ∀ s', GoesOn exLearnerC s s' → ∃ r', HasRule s'.w "go and come" r' ∧ AsBefore exLearnerC r r' := by
  obtain ⟨s, hs, hn⟩ := exTurns_made
  have ht := C79_tried (exTurns_tried 0) hs
  obtain ⟨r, hr⟩ := (ht "go and come").1 (by rw [(Prod.mk.inj hn).2]; decide)
  exact ⟨s, r, hs, hr, (fun r0 h0 => by cases h0), C79_stems hs hr, ht, fun s' hg => C79_kept hs hg hr⟩

/-- C79_closed, an instance. -/
example : ∃ s, Reachable exFullC exDropper Option.none 0 s ∧ s.w.ordered = ["drop"] := by
  obtain ⟨s, hs, _⟩ := exDropper_stores
  exact ⟨s, hs, (C79_closed rfl .init (goesOn_of_reachable hs)).1⟩

/-- C80_partial, an instance: with rules that have been made, one of them twice. -/
example : ∃ s, Reachable exLearnerC (exTurns 0) Option.none 0 s ∧ BestFirst s.w ∧ BestChosen exLearnerC s.w ∧ s.w.ordered.length = 5 := by
  obtain ⟨s, hs, hn⟩ := exTurns_twice
  obtain ⟨h1, h2⟩ := C80_partial rfl rfl (exTurns_tried 0) (exTurns_order 0) (fun n r h => (exTurns_utility h).symm.le) (fun n r _ _ h _ => exTurns_utility h) hs
  exact ⟨s, hs, h1, h2, by rw [(Prod.mk.inj hn).2]; rfl⟩

/-- C80 fails without learning: a rule that is made of two rules with a negative utility has utility 0, but comes last. -/
theorem C80_compiled_refuted : ∃ s, Reachable exLearnerC (exTurns (-1)) Option.none 0 s ∧ ¬ BestFirst s.w ∧ ¬ BestChosen exLearnerC s.w := by
  have hb : (Stepped.state? (stepsOf exLearnerC 32 (Sim.init (exTurns (-1)) Option.none 0))).map (leftAside exLearnerC "go and come") = some true := by decide +kernel
  cases h1 : Stepped.state? (stepsOf exLearnerC 32 (Sim.init (exTurns (-1)) Option.none 0)) with
  | none => rw [h1] at hb; cases hb
  | some s =>
    rw [h1] at hb
    have hs : Reachable exLearnerC (exTurns (-1)) Option.none 0 s := stepsOf_ok .init (state?_some h1)
    have hn := leftAside_spec (Option.some.inj hb)
    exact ⟨s, hs, fun ho => hn (bestChosen_of rfl (C79_tried (exTurns_tried _) hs) ho), hn⟩

/-- Two rules that do nothing; the better one is punished. -/
def exRivals : Mach :=
  { exMach [] [] with rules := [("a", ⟨⟨.ok [], .ok []⟩, 5, some 0⟩), ("b", ⟨⟨.ok [], .ok []⟩, 9 / 2, Option.none⟩)], ordered := ["a", "b"] }

/-- Learning is on. -/
noncomputable abbrev exRivalC : Cfg := { exFullC with up := ⟨false, 0, true, 1 / 5⟩ }

theorem exRivals_tried : AllTried exRivals := by
  intro n
  show n ∈ ["a", "b"] ↔ _
  rw [List.mem_cons, List.mem_singleton]
  constructor
  · rintro (rfl | rfl)
    · exact ⟨_, rfl⟩
    · exact ⟨_, rfl⟩
  · rintro ⟨r, h⟩
    unfold HasRule exRivals alook at h
    split at h
    · rename_i e; exact .inl e.symm
    · unfold alook at h
      split at h
      · rename_i e; exact .inr e.symm
      · cases h

/-- C80 does not hold in full: a rule that has become worse than another one is still selected. -/
theorem C80_refuted : ¬ C80_full := by
  intro h
  have hb : (Stepped.state? (stepsOf exRivalC 12 (Sim.init exRivals Option.none 0))).map (leftAside exRivalC "b") = some true := by decide +kernel
  cases h1 : Stepped.state? (stepsOf exRivalC 12 (Sim.init exRivals Option.none 0)) with
  | none => rw [h1] at hb; cases hb
  | some s =>
    rw [h1] at hb
    refine leftAside_spec (Option.some.inj hb) (h exRivalC exRivals Option.none 0 rfl exRivals_tried ?_ s (stepsOf_ok .init (state?_some h1)))
    · refine List.pairwise_cons.2 ⟨fun b hb r r' h1 h2 => ?_, List.pairwise_singleton _ _⟩
      cases List.mem_singleton.1 hb
      cases h1; cases h2
      norm_num

/-- Noise that is in favour of the second rule on the list. -/
noncomputable abbrev exNoisyC : Cfg := { exFullC with up := ⟨true, 1, false, 1 / 5⟩, udraws := fun _ j => if j = 1 then 1 else 0 }

/-- C80_noisy, an instance: the second rule is selected. -/
example : ∃ r, (selectIn exNoisyC { (Sim.init exRivals Option.none 0).w with bv := BV.init }).2 = .ok (some ("b", r)) ∧ ∃ i : ℕ, (Sim.init exRivals Option.none 0).w.ordered[i]? = some "b" ∧
    ∀ j : ℕ, (Sim.init exRivals Option.none 0).w.ordered[j]? = some "a" → 5 + exNoisyC.udraws (Sim.init exRivals Option.none 0).w.tick j ≤ r.utility + exNoisyC.udraws (Sim.init exRivals Option.none 0).w.tick i := by
  have hb : (match (selectIn exNoisyC { (Sim.init exRivals Option.none 0).w with bv := BV.init }).2 with
    | .ok (some (n, _)) => n == "b"
    | _ => false) = true := by decide +kernel
  split at hb
  · rename_i n r hs
    obtain rfl : n = "b" := eq_of_beq hb
    obtain ⟨_, _, i, h1, h2⟩ := C80_noisy rfl exRivals_tried .init hs
    exact ⟨r, hs, i, h1, fun j hj => ((h2 "a" ⟨⟨.ok [], .ok []⟩, 5, some 0⟩ BV.init rfl ⟨_, rfl, .inl ⟨[], rfl, rfl⟩⟩).2 j hj).1⟩
  · cases hb

end Verif.Props
