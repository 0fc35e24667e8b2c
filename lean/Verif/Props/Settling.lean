import Mathlib.Algebra.Order.Archimedean.Basic
import Verif.Props.Learning
import Verif.Spec.Settling
/-! # Property C70: utilities settle where the rewards are -/
namespace Verif.Props
open Verif Verif.Spec

/-! ## Steps towards given values -/

theorem drawn_learn {alpha r now : ℚ} {l : List ℚ} {u u' : ℚ} (h : LearnSteps alpha r now l u u') : Drawn alpha (l.map fun t => r - (now - t)) u u' := by
  induction h with
  | nil => exact .nil _
  | cons h _ ih => exact .cons h ih

theorem drawn_append {alpha : ℚ} {l1 l2 : List ℚ} {u v w : ℚ} (h1 : Drawn alpha l1 u v) (h2 : Drawn alpha l2 v w) : Drawn alpha (l1 ++ l2) u w := by
  induction h1 with
  | nil => exact h2
  | cons h _ ih => exact .cons h (ih h2)

theorem rounded_within {lo hi q v : ℚ} (hlo : OnGrid lo) (hhi : OnGrid hi) (h : IsRounded q v) (h1 : lo ≤ q) (h2 : q ≤ hi) : lo ≤ v ∧ v ≤ hi := by
  obtain ⟨a, rfl⟩ := hlo
  obtain ⟨b, rfl⟩ := hhi
  rw [isRounded_iff] at h
  subst h
  constructor
  · rw [← round4_of_int a]; exact round4_mono h1
  · rw [← round4_of_int b]; exact round4_mono h2

theorem between {alpha lo hi u e : ℚ} (h0 : 0 ≤ alpha) (h1 : alpha ≤ 1) (hu : lo ≤ u ∧ u ≤ hi) (he : lo ≤ e ∧ e ≤ hi) :
    lo ≤ (1 - alpha) * u + alpha * e ∧ (1 - alpha) * u + alpha * e ≤ hi := by
  constructor
  · nlinarith [mul_nonneg h0 (sub_nonneg.2 he.1), mul_nonneg (sub_nonneg.2 h1) (sub_nonneg.2 hu.1)]
  · nlinarith [mul_nonneg h0 (sub_nonneg.2 he.2), mul_nonneg (sub_nonneg.2 h1) (sub_nonneg.2 hu.2)]

theorem drawn_within {alpha lo hi : ℚ} (h0 : 0 ≤ alpha) (h1 : alpha ≤ 1) (hlo : OnGrid lo) (hhi : OnGrid hi) {l : List ℚ} {u u' : ℚ}
    (h : Drawn alpha l u u') (hl : ∀ e ∈ l, lo ≤ e ∧ e ≤ hi) (hu : lo ≤ u ∧ u ≤ hi) : lo ≤ u' ∧ u' ≤ hi := by
  induction h with
  | nil => exact hu
  | cons h _ ih =>
    have := between h0 h1 hu (hl _ (.head _))
    exact ih (fun e he => hl e (.tail _ he)) (rounded_within hlo hhi h this.1 this.2)

/-- The distance above a bound shrinks. -/
theorem drawn_above {alpha b : ℚ} (h0 : 0 < alpha) (h1 : alpha ≤ 1) {l : List ℚ} {u u' : ℚ} (h : Drawn alpha l u u') (hl : ∀ e ∈ l, e ≤ b) :
    ∀ d, 0 ≤ d → u ≤ b + d + 1 / (20000 * alpha) → u' ≤ b + (1 - alpha) ^ l.length * d + 1 / (20000 * alpha) := by
  have hc : alpha * (1 / (20000 * alpha)) = 1 / 20000 := by field_simp
  induction h with
  | nil => intro d _ hu; simpa using hu
  | @cons e l u v w h _ ih =>
    intro d hd hu
    have hclose := (abs_le.1 (isRounded_iff.1 h ▸ round4_close ((1 - alpha) * u + alpha * e)))
    have he := hl e (.head _)
    have := ih (fun e he => hl e (.tail _ he)) ((1 - alpha) * d) (mul_nonneg (by linarith) hd) (by
      nlinarith [mul_le_mul_of_nonneg_left he h0.le, mul_le_mul_of_nonneg_left hu (show (0 : ℚ) ≤ 1 - alpha by linarith)])
    rw [List.length_cons, pow_succ, mul_assoc]
    exact this

/-- The distance below a bound shrinks. -/
theorem drawn_below {alpha a : ℚ} (h0 : 0 < alpha) (h1 : alpha ≤ 1) {l : List ℚ} {u u' : ℚ} (h : Drawn alpha l u u') (hl : ∀ e ∈ l, a ≤ e) :
    ∀ d, 0 ≤ d → a - d - 1 / (20000 * alpha) ≤ u → a - (1 - alpha) ^ l.length * d - 1 / (20000 * alpha) ≤ u' := by
  have hc : alpha * (1 / (20000 * alpha)) = 1 / 20000 := by field_simp
  induction h with
  | nil => intro d _ hu; simpa using hu
  | @cons e l u v w h _ ih =>
    intro d hd hu
    have hclose := (abs_le.1 (isRounded_iff.1 h ▸ round4_close ((1 - alpha) * u + alpha * e)))
    have he := hl e (.head _)
    have := ih (fun e he => hl e (.tail _ he)) ((1 - alpha) * d) (mul_nonneg (by linarith) hd) (by
      nlinarith [mul_le_mul_of_nonneg_left he h0.le, mul_le_mul_of_nonneg_left hu (show (0 : ℚ) ≤ 1 - alpha by linarith)])
    rw [List.length_cons, pow_succ, mul_assoc]
    exact this

/-! ## Histories -/

theorem step_reward {stops : Bool} {alpha delay s : ℚ} {o : CycleEnd} {b b' : Ledger} (h : LedgerStep stops alpha delay s o b b') : b'.reward = b.reward := by
  cases h with
  | nothing => rfl
  | stopped => split <;> rfl
  | fired => rfl
  | rewarded _ h => exact h.reward

theorem compiles_reward {alpha : ℚ} {b b' : Ledger} (h : Compiles alpha b b') : b'.reward = b.reward ∧ b'.pending = b.pending := by
  cases h <;> exact ⟨rfl, rfl⟩

/-- One cycle: the rule is drawn towards the delayed rewards of this cycle. -/
theorem step_drawn {alpha delay s : ℚ} {o : CycleEnd} {b b' : Ledger} (h : LedgerStep true alpha delay s o b b') (n : String) (hist : List (ℚ × CycleEnd)) :
    ∃ l, delayedRewards b.reward delay n ((s, o) :: hist) (b.pending n) = l ++ delayedRewards b.reward delay n hist (b'.pending n) ∧
      (b.utility n = Option.none → b'.utility n = Option.none) ∧ ∀ u, b.utility n = some u → ∃ u', b'.utility n = some u' ∧ Drawn alpha l u u' := by
  have uses : ∀ m, (if (m == n) = true then b.pending n ++ [s] else b.pending n) = (b.use m s).pending n := by
    intro m
    simp only [Ledger.use, beq_iff_eq]
    by_cases e : m = n
    · rw [if_pos e, if_pos e.symm]
    · rw [if_neg e, if_neg fun h => e h.symm]
  cases h with
  | nothing => exact ⟨[], rfl, fun h => h, fun u h => ⟨u, h, .nil u⟩⟩
  | @stopped _ m =>
    refine ⟨[], ?_, fun h => h, fun u h => ⟨u, h, .nil u⟩⟩
    simp only [delayedRewards, CycleEnd.firing, CycleEnd.selects, Option.bind_none, if_true, List.nil_append]
    rw [← uses m]; rfl
  | @fired _ m hr =>
    refine ⟨[], ?_, fun h => h, fun u h => ⟨u, h, .nil u⟩⟩
    simp only [delayedRewards, CycleEnd.firing, CycleEnd.selects, Option.bind_some, hr, List.nil_append]
    rw [← uses m]; rfl
  | @rewarded _ _ m r hr hs =>
    refine ⟨((b.use m s).pending n).map fun t => r - (s + delay - t), ?_, hs.same n, fun u h => ?_⟩
    · simp only [delayedRewards, CycleEnd.firing, CycleEnd.selects, Option.bind_some, hr, hs.pending]
      rw [← uses m]; rfl
    · obtain ⟨u', h1, h2⟩ := hs.steps n u h
      exact ⟨u', h1, drawn_learn h2⟩

/-- Utilities stay in a range that contains all that they are drawn towards. -/
theorem steps_within {alpha delay lo hi : ℚ} (h0 : 0 ≤ alpha) (h1 : alpha ≤ 1) (hlo : OnGrid lo) (hhi : OnGrid hi) (hz : lo ≤ 0 ∧ 0 ≤ hi)
    {h : List (ℚ × CycleEnd)} {b b' : Ledger} (hs : CompilingSteps true alpha delay h b b') :
    (∀ n, ∀ e ∈ delayedRewards b.reward delay n h (b.pending n), lo ≤ e ∧ e ≤ hi) → b.Within lo hi → b'.Within lo hi := by
  induction hs with
  | nil => exact fun _ h => h
  | @cons s o hist b b1 b' hstep _ ih =>
    intro hr hb
    have plain : ∀ {b2}, LedgerStep true alpha delay s o b b2 → b2.Within lo hi ∧
        ∀ n, ∀ e ∈ delayedRewards b2.reward delay n hist (b2.pending n), lo ≤ e ∧ e ≤ hi := by
      intro b2 hl
      constructor
      · intro n u hu
        obtain ⟨l, e, hnone, hsome⟩ := step_drawn hl n hist
        cases hbu : b.utility n with
        | none => rw [hnone hbu] at hu; cases hu
        | some u0 =>
          obtain ⟨u', hu', hd⟩ := hsome u0 hbu
          rw [hu] at hu'; cases hu'
          exact drawn_within h0 h1 hlo hhi hd (fun x hx => hr n x (by rw [e]; exact List.mem_append.2 (.inl hx))) (hb n u0 hbu)
      · intro n x hx
        obtain ⟨l, e, _⟩ := step_drawn hl n hist
        rw [step_reward hl] at hx
        exact hr n x (by rw [e]; exact List.mem_append.2 (.inr hx))
    cases hstep with
    | plain hl => exact ih (plain hl).2 (plain hl).1
    | compiled hl hc =>
      have hp := plain hl
      refine ih ?_ ?_
      · rw [(compiles_reward hc).1, (compiles_reward hc).2]
        exact hp.2
      · cases hc with
        | nothing => exact hp.1
        | @added m _ _ _ =>
          intro n u hu
          by_cases e : n = m
          · simp only [e, if_true, Option.some.injEq] at hu; subst hu; exact hz
          · simp only [if_neg e] at hu; exact hp.1 n u hu
        | @again m _ u v u' _ hu hv hround =>
          intro n x hx
          by_cases e : n = m
          · simp only [e, if_true, Option.some.injEq] at hx
            subst hx
            have := between h0 h1 (hp.1 _ _ hu) (hp.1 _ _ hv)
            exact rounded_within hlo hhi hround this.1 this.2
          · simp only [if_neg e] at hx; exact hp.1 n x hx

/-- The same without compilation. -/
theorem steps_within_plain {alpha delay lo hi : ℚ} (h0 : 0 ≤ alpha) (h1 : alpha ≤ 1) (hlo : OnGrid lo) (hhi : OnGrid hi)
    {h : List (ℚ × CycleEnd)} {b b' : Ledger} (hs : LedgerSteps true alpha delay h b b') :
    (∀ n, ∀ e ∈ delayedRewards b.reward delay n h (b.pending n), lo ≤ e ∧ e ≤ hi) → b.Within lo hi → b'.Within lo hi := by
  induction hs with
  | nil => exact fun _ h => h
  | @cons s o hist b b1 b' hl _ ih =>
    intro hr hb
    refine ih (fun n x hx => ?_) fun n u hu => ?_
    · obtain ⟨l, e, _⟩ := step_drawn hl n hist
      rw [step_reward hl] at hx
      exact hr n x (by rw [e]; exact List.mem_append.2 (.inr hx))
    · obtain ⟨l, e, hnone, hsome⟩ := step_drawn hl n hist
      cases hbu : b.utility n with
      | none => rw [hnone hbu] at hu; cases hu
      | some u0 =>
        obtain ⟨u', hu', hd⟩ := hsome u0 hbu
        rw [hu] at hu'; cases hu'
        exact drawn_within h0 h1 hlo hhi hd (fun x hx => hr n x (by rw [e]; exact List.mem_append.2 (.inl hx))) (hb n u0 hbu)

/-- A rule that does not have the name of a compiled rule is drawn towards its delayed rewards, in their order, and changes in no other
way. -/
theorem steps_drawn {alpha delay : ℚ} {h : List (ℚ × CycleEnd)} {b b' : Ledger} (hs : CompilingSteps true alpha delay h b b') (n : String)
    (hn : ∀ m, ¬ PairName m n) : ∀ u, b.utility n = some u →
    ∃ u', b'.utility n = some u' ∧ Drawn alpha (delayedRewards b.reward delay n h (b.pending n)) u u' := by
  induction hs with
  | nil => exact fun u hu => ⟨u, hu, .nil u⟩
  | @cons s o hist b b1 b' hstep _ ih =>
    intro u hu
    have fin : ∀ {b2}, LedgerStep true alpha delay s o b b2 → b1.reward = b2.reward → b1.pending = b2.pending → b1.utility n = b2.utility n →
        ∃ u', b'.utility n = some u' ∧ Drawn alpha (delayedRewards b.reward delay n ((s, o) :: hist) (b.pending n)) u u' := by
      intro b2 hl hr hp hu2
      obtain ⟨l, e, _, hsome⟩ := step_drawn hl n hist
      obtain ⟨v, hv, hd⟩ := hsome u hu
      obtain ⟨u', hu', hd'⟩ := ih v (by rw [hu2, hv])
      refine ⟨u', hu', ?_⟩
      rw [e]
      rw [hr, hp, step_reward hl] at hd'
      exact drawn_append hd hd'
    cases hstep with
    | plain hl => exact fin hl rfl rfl rfl
    | compiled hl hc =>
      refine fin hl (compiles_reward hc).1 (compiles_reward hc).2 ?_
      cases hc with
      | nothing => rfl
      | @added m k hm _ =>
        have : n ≠ m := fun e => hn k (e ▸ hm)
        simp only [if_neg this]
      | @again m k _ _ _ hm _ _ _ =>
        have : n ≠ m := fun e => hn k (e ▸ hm)
        simp only [if_neg this]

/-! ## The property -/

/-- C70, first part: utilities stay in every range that contains them at first and contains all delayed rewards; if rules are compiled it
must contain 0 too, which is where their utilities begin. -/
theorem C70_range (C : Cfg) (hl : C.up.utilityLearning = true) (h0 : 0 ≤ C.up.alpha) (h1 : C.up.alpha ≤ 1) (lo hi : ℚ) (hlo : OnGrid lo)
    (hhi : OnGrid hi) (hz : C.compilation = true → lo ≤ 0 ∧ 0 ≤ hi) (h : List (ℚ × CycleEnd)) (w w' : Mach)
    (hu : (w.used.map Prod.fst).Nodup) (hh : History C h w w')
    (hr : ∀ n, ∀ e ∈ delayedRewards (ledgerOf w).reward C.ruleFiring n h ((ledgerOf w).pending n), lo ≤ e ∧ e ≤ hi)
    (hb : (ledgerOf w).Within lo hi) : (ledgerOf w').Within lo hi := by
  cases hc : C.compilation with
  | true => exact steps_within h0 h1 hlo hhi (hz hc) (C33_compiled C hl h w w' hu hh) hr hb
  | false => exact steps_within_plain h0 h1 hlo hhi (C33_partial C hl hc h w w' hu hh) hr hb

/-- C70, second part: each delayed reward brings a rule nearer to the range of the delayed rewards, up to rounding. -/
theorem C70_settle (C : Cfg) (hl : C.up.utilityLearning = true) (h0 : 0 < C.up.alpha) (h1 : C.up.alpha ≤ 1) (a b : ℚ) (h : List (ℚ × CycleEnd))
    (w w' : Mach) (hu : (w.used.map Prod.fst).Nodup) (hh : History C h w w') (n : String) (hn : C.compilation = true → ∀ m, ¬ PairName m n)
    (l : List ℚ) (hlist : l = delayedRewards (ledgerOf w).reward C.ruleFiring n h ((ledgerOf w).pending n))
    (hr : ∀ e ∈ l, a ≤ e ∧ e ≤ b) (u : ℚ) (hun : (ledgerOf w).utility n = some u) :
    ∃ u', (ledgerOf w').utility n = some u' ∧
      a - (1 - C.up.alpha) ^ l.length * max 0 (a - u) - 1 / (20000 * C.up.alpha) ≤ u' ∧
      u' ≤ b + (1 - C.up.alpha) ^ l.length * max 0 (u - b) + 1 / (20000 * C.up.alpha) := by
  have hpos : 0 < 1 / (20000 * C.up.alpha) := by positivity
  have fin : ∃ u', (ledgerOf w').utility n = some u' ∧ Drawn C.up.alpha l u u' := by
    subst hlist
    cases hc : C.compilation with
    | true => exact steps_drawn (C33_compiled C hl h w w' hu hh) n (hn hc) u hun
    | false =>
      have key := C33_partial C hl hc h w w' hu hh
      clear hh hr hu
      generalize ledgerOf w = B at key hun
      generalize ledgerOf w' = B' at key
      induction key generalizing u with
      | nil => exact ⟨u, hun, .nil u⟩
      | @cons s o hist B B1 B' hs _ ih =>
        obtain ⟨l, e, _, hsome⟩ := step_drawn hs n hist
        obtain ⟨v, hv, hd⟩ := hsome u hun
        obtain ⟨u', hu', hd'⟩ := ih v hv
        refine ⟨u', hu', ?_⟩
        rw [e]
        rw [step_reward hs] at hd'
        exact drawn_append hd hd'
  obtain ⟨u', hu', hd⟩ := fin
  refine ⟨u', hu', drawn_below h0 h1 hd (fun e he => (hr e he).1) _ (le_max_left _ _) ?_, drawn_above h0 h1 hd (fun e he => (hr e he).2) _ (le_max_left _ _) ?_⟩
  · have := le_max_right 0 (a - u); linarith
  · have := le_max_right 0 (u - b); linarith

/-- So after enough rewards the utility is as near to the range of the delayed rewards as rounding allows, wherever it was at first. How many
are enough does not depend on the history. -/
theorem C70_limit (alpha : ℚ) (h0 : 0 < alpha) (h1 : alpha ≤ 1) (a b u eps : ℚ) (he : 0 < eps) : ∃ K : ℕ, ∀ (C : Cfg), C.up.utilityLearning = true →
    C.up.alpha = alpha → ∀ (h : List (ℚ × CycleEnd)) (w w' : Mach), (w.used.map Prod.fst).Nodup → History C h w w' → ∀ (n : String),
    (C.compilation = true → ∀ m, ¬ PairName m n) → (ledgerOf w).utility n = some u →
    ∀ l : List ℚ, l = delayedRewards (ledgerOf w).reward C.ruleFiring n h ((ledgerOf w).pending n) → (∀ e ∈ l, a ≤ e ∧ e ≤ b) → K ≤ l.length →
    ∃ u', (ledgerOf w').utility n = some u' ∧ a - eps - 1 / (20000 * alpha) ≤ u' ∧ u' ≤ b + eps + 1 / (20000 * alpha) := by
  obtain ⟨K, hK⟩ := exists_pow_lt_of_lt_one (show 0 < eps / (1 + max 0 (a - u) + max 0 (u - b)) by positivity) (show 1 - alpha < 1 by linarith)
  refine ⟨K, fun C hl hal h w w' hu hh n hn hun l hlist hr hk => ?_⟩
  subst hal
  obtain ⟨u', hu', h2, h3⟩ := C70_settle C hl h0 h1 a b h w w' hu hh n hn l hlist hr u hun
  have hle : (1 - C.up.alpha) ^ l.length ≤ (1 - C.up.alpha) ^ K := pow_le_pow_of_le_one (by linarith) (by linarith) hk
  have p1 : 0 ≤ max 0 (a - u) := le_max_left _ _
  have p2 : 0 ≤ max 0 (u - b) := le_max_left _ _
  have hden : 0 < 1 + max 0 (a - u) + max 0 (u - b) := by positivity
  rw [lt_div_iff₀ hden] at hK
  have p3 : 0 ≤ (1 - C.up.alpha) ^ l.length := pow_nonneg (by linarith) _
  have p4 := mul_le_mul_of_nonneg_right hle hden.le
  have p5 := mul_nonneg p3 p1
  have p6 := mul_nonneg p3 p2
  refine ⟨u', hu', ?_, ?_⟩ <;> nlinarith

/-- What is left by rounding cannot be dropped: with a small rate a utility never moves, however often the same reward is received. -/
theorem C70_stalls : ∀ k : ℕ, Drawn (1 / 10000) (List.replicate k (2 / 5)) 0 0 := by
  intro k
  induction k with
  | zero => exact .nil 0
  | succ k ih =>
    refine .cons ⟨0, by norm_num, ?_, fun h => ?_⟩ ih
    · norm_num [abs_le]
    · norm_num at h

theorem unlearned_compile (P : Py) (reg : Reg) (p : UParams) (hp : p.utilityLearning = false) (rules : CRules) (r1 r2 : String) (sv : SlotVals)
    (bufs : List (String × CBuf)) (n : String) (r : CRule) (h : alook n rules = some r) : alook n (compileRules P reg p rules r1 r2 sv bufs).1 = some r := by
  rcases compileRules_cases P reg p rules r1 r2 sv bufs with ⟨_, e⟩ | ⟨_, _, e⟩ | ⟨x1, x2, new, h1, h2, hn, hloop⟩
  · rw [e, h]
  · rw [e, h]
  obtain ⟨i, _, _, hcase⟩ := nameLoop_pair hloop
  rcases hcase with ⟨ha, e, _⟩ | ⟨q, ha, ⟨_, _, e, _⟩ | ⟨_, e, _⟩⟩
  · rw [e, alook_aset, if_neg, h]
    intro e
    rw [e, ha] at h; cases h
  · rw [e, h]
  · rw [e]
    unfold relearn
    simp only [hp, Bool.false_eq_true, if_false]
    exact h

/-- Without learning, no rule's utility ever changes, whatever rules fire and are compiled. -/
theorem C70_unlearned (C : Cfg) (hl : C.up.utilityLearning = false) (h : List (ℚ × CycleEnd)) (w w' : Mach) (hh : History C h w w') (n : String) :
    ∀ u, (ledgerOf w).utility n = some u → (ledgerOf w').utility n = some u := by
  have key : ∀ r, alook n w.rules = some r → alook n w'.rules = some r := by
    induction hh with
    | nil => exact fun _ h => h
    | @cons s o h w w1 w2 w' l hr _ hp _ ih =>
      intro r hr0
      refine ih r ?_
      rw [hp.rules]
      have reward' : ∀ m q v, rewardStep C m q v = v := fun m q v => by unfold rewardStep; simp [hl]
      rcases cycle_book C s w l _ hr with ⟨_, hb⟩ | ⟨m, _, _, _, _, _, _, _, hb⟩ | ⟨m, _, _, _, _, _, _, _, hb⟩
      · rw [(hb w1 rfl).1]; exact hr0
      · rw [(hb w1 rfl).1]; exact hr0
      · have hb := (hb w1 rfl).2
        rw [reward'] at hb
        rcases hb with e | ⟨_, reg, r1, r2, sv, bufs, e⟩
        · rw [e]; exact hr0
        · rw [e]; exact unlearned_compile C.P reg C.up hl _ r1 r2 sv bufs n r hr0
  intro u hu
  simp only [ledgerOf, Option.map_eq_some_iff] at hu ⊢
  obtain ⟨r, h1, h2⟩ := hu
  exact ⟨r, key r h1, h2⟩

/-- The hypotheses of the theorems are met: in the example history the second rule gets a delayed reward of 9.9 and the first one of 9.95. -/
example (H : PyHash) : (exLearns H).up.utilityLearning = true ∧ 0 < (exLearns H).up.alpha ∧ (exLearns H).up.alpha ≤ 1 ∧ OnGrid 0 ∧ OnGrid 10 ∧
    (exLearns H).compilation = false ∧ (exLearner.used.map Prod.fst).Nodup ∧ (ledgerOf exLearner).Within 0 10 ∧
    (∃ w', History (exLearns H) [(0, .stopped "r2"), (1 / 20, .fired "r1")] exLearner w') ∧
    delayedRewards (ledgerOf exLearner).reward (1 / 20) "r1" [(0, .stopped "r2"), (1 / 20, .fired "r1")] ((ledgerOf exLearner).pending "r1") = [199 / 20] ∧
    delayedRewards (ledgerOf exLearner).reward (1 / 20) "r2" [(0, .stopped "r2"), (1 / 20, .fired "r1")] ((ledgerOf exLearner).pending "r2") = [99 / 10] ∧
    (exLearns H).ruleFiring = 1 / 20 := by
  refine ⟨rfl, by norm_num [exLearns], by norm_num [exLearns], ⟨0, by norm_num⟩, ⟨100000, by norm_num⟩, rfl, List.nodup_nil, ?_, exLearner_history H,
    by decide +kernel, by decide +kernel, rfl⟩
  intro n u hu
  have : u = 0 := by
    simp only [ledgerOf, exLearner, alook, Option.map_eq_some_iff] at hu
    obtain ⟨r, h, rfl⟩ := hu
    split at h
    · cases h; rfl
    · split at h
      · cases h; rfl
      · cases h
  subst this
  norm_num

end Verif.Props
