import Mathlib.Analysis.SpecialFunctions.Pow.Asymptotics
import Verif.Props.Retrieve
import Verif.Spec.Forgetting
/-! # Property C71: what is not used is forgotten, what is used often enough is not -/
namespace Verif.Props
open Verif Verif.Spec

/-! ## Base levels -/

theorem past_from (l : List ℚ) : ∃ T : ℚ, ∀ t ∈ l, t < T := by
  induction l with
  | nil => exact ⟨0, by simp⟩
  | cons a l ih =>
    obtain ⟨T, h⟩ := ih
    refine ⟨max T (a + 1), fun t ht => ?_⟩
    rcases List.mem_cons.1 ht with rfl | ht
    · exact lt_of_lt_of_le (by linarith) (le_max_right _ _)
    · exact lt_of_lt_of_le (h t ht) (le_max_left _ _)

/-- The sum of the powers gets small. -/
theorem sum_small {d : ℝ} (hd : 0 < d) (e : ℝ) (he : 0 < e) (l : List ℚ) :
    ∃ T : ℚ, ∀ now, T ≤ now → Past now l ∧ (l.map (fun t : ℚ => (((now - t : ℚ) : ℝ)) ^ (-d))).sum < e := by
  induction l generalizing e with
  | nil => exact ⟨0, fun _ _ => ⟨by intro t ht; simp at ht, by simpa using he⟩⟩
  | cons a l ih =>
    obtain ⟨T, hT⟩ := ih (e / 2) (by linarith)
    have hlim := tendsto_rpow_neg_atTop hd
    have := hlim.eventually (gt_mem_nhds (show (0 : ℝ) < e / 2 by linarith))
    obtain ⟨x, hx⟩ := Filter.eventually_atTop.1 this
    obtain ⟨n, hn⟩ := exists_nat_ge x
    refine ⟨max T (a + n + 1), fun now hnow => ?_⟩
    have h1 := hT now (le_trans (le_max_left _ _) hnow)
    have h2 : a + n + 1 ≤ now := le_trans (le_max_right _ _) hnow
    have h3 : a < now := lt_of_lt_of_le (by have : (0 : ℚ) ≤ n := by positivity
                                            linarith) h2
    refine ⟨fun t ht => ?_, ?_⟩
    · rcases List.mem_cons.1 ht with rfl | ht
      · exact h3
      · exact h1.1 t ht
    · rw [List.map_cons, List.sum_cons]
      have : x ≤ ((now - a : ℚ) : ℝ) := by
        have h4 : (n : ℚ) ≤ now - a := by linarith
        have h5 : (n : ℝ) ≤ ((now - a : ℚ) : ℝ) := by exact_mod_cast h4
        linarith
      have := hx _ this
      linarith [h1.2]

/-- C71, base levels: whatever value is given, the base level of a chunk without an activation given by hand is below it from some time on,
if no trace is added. -/
theorem C71_fades (d : ℝ) (hd : 0 < d) (l : List ℚ) (optimized : Bool) (x : ℝ) :
    ∃ T : ℚ, ∀ now, T ≤ now → Past now l ∧ ∀ b, baselevel now l true d Option.none optimized = .ok b → b < x := by
  cases l with
  | nil => exact ⟨0, fun _ _ => ⟨by intro t ht; simp at ht, fun b h => by simp [baselevel] at h⟩⟩
  | cons a l =>
    cases optimized with
    | false =>
      obtain ⟨T, hT⟩ := sum_small hd (Real.exp x) (Real.exp_pos x) (a :: l)
      refine ⟨T, fun now hnow => ⟨(hT now hnow).1, fun b h => ?_⟩⟩
      rw [C24_formula now d _ (hT now hnow).1 (by simp)] at h
      cases h
      have hp := sum_pow_pos (d := d) (hT now hnow).1 (by simp)
      exact (Real.log_lt_iff_lt_exp hp).2 (hT now hnow).2
    | true =>
      obtain ⟨T, hT⟩ := past_from (a :: l)
      obtain ⟨m, hm⟩ : ∃ m, (a :: l).max? = some m := by
        cases h : (a :: l).max? with
        | none => simp at h
        | some m => exact ⟨m, rfl⟩
      obtain ⟨n, hn⟩ := exists_nat_ge (Real.exp ((Real.log (((a :: l).length : ℝ) / (1 - d)) - x) / d))
      refine ⟨max T (m + n + 1), fun now hnow => ⟨fun t ht => lt_of_lt_of_le (hT t ht) (le_trans (le_max_left _ _) hnow), fun b h => ?_⟩⟩
      have h2 : m + n + 1 ≤ now := le_trans (le_max_right _ _) hnow
      simp only [baselevel, if_true, reduceCtorEq, if_false, bllOptimized, hm] at h
      by_cases e1 : d = 1
      · simp [e1] at h
      by_cases e2 : ((a :: l).length : ℝ) / (1 - d) ≤ 0
      · simp only [e1, e2, if_false, if_true] at h; cases h
      by_cases e3 : now ≤ m
      · simp only [e1, e2, e3, if_false, if_true] at h; cases h
      simp only [e1, e2, e3, if_false] at h
      cases h
      have h4 : (n : ℚ) + 1 ≤ now - m := by linarith
      have h5 : (n : ℝ) + 1 ≤ (now : ℝ) - (m : ℝ) := by exact_mod_cast h4
      have h6 : Real.exp ((Real.log (((a :: l).length : ℝ) / (1 - d)) - x) / d) < (now : ℝ) - (m : ℝ) := by linarith
      have h7 := (Real.lt_log_iff_exp_lt (lt_trans (Real.exp_pos _) h6)).2 h6
      rw [div_lt_iff₀ hd] at h7
      linarith

/-- The same for a whole memory. -/
theorem memory_fades (d : ℝ) (hd : 0 < d) (optimized : Bool) (x : ℝ) (data : List (Chunk × List ℚ)) :
    ∃ T : ℚ, ∀ now, T ≤ now → ∀ q ∈ data, Past now q.2 ∧ ∀ b, baselevel now q.2 true d Option.none optimized = .ok b → b < x := by
  induction data with
  | nil => exact ⟨0, by simp⟩
  | cons q r ih =>
    obtain ⟨T1, h1⟩ := ih
    obtain ⟨T2, h2⟩ := C71_fades d hd q.2 optimized x
    refine ⟨max T1 T2, fun now hnow c hc => ?_⟩
    rcases List.mem_cons.1 hc with rfl | hc
    · exact h2 now (le_trans (le_max_right _ _) hnow)
    · exact h1 now (le_trans (le_max_left _ _) hnow) c hc

/-! ## Retrieval -/

/-- C71, forgetting: if nothing is added to memory, there is a time from which on every retrieval fails, whatever is asked for, as long as what
chunks get in addition to their base level does not exceed some value. The failure takes the time that belongs to the threshold. -/
theorem C71_forgotten (H : PyHash) (p : RParams) (m : DecMem) (x : ℝ) (cf : H.CollisionFree) (hsub : p.subsymbolic = true)
    (hbll : p.bll = true) (hd : 0 < p.decay) (hm : MemReach H false m) (hng : NoneGiven H m) (hn : 0 ≤ p.noise) :
    ∃ T : ℚ, ∀ (P : Py) (st st' : RBuf) (now : ℚ) (other : Chunk) (bv : BV) (bufs : List (String × Option Chunk)) (want : Option Bool)
      (draws : ℕ → ℝ) (res : Option Chunk) (t : ℝ), P.H = H → T ≤ now → st.dm = m → (∀ d, some d ∈ st.recent → Plain d) → GoodSources p bufs →
      (∀ reg' req, resolveChunk P bv false st.reg other = (reg', .ok req) → HelpAtMost H p req bufs draws m x) →
      st.retrieve P p now other bv bufs want draws = (st', .ok (res, t)) →
      res = Option.none ∧ t = p.F * Real.exp (-p.f * p.threshold) := by
  obtain ⟨T, hT⟩ := memory_fades p.decay hd p.optimized (p.threshold - x) m.data
  refine ⟨T, fun P st st' now other bv bufs want draws res t hP hnow hst hrec hb hx h => ?_⟩
  subst hP
  subst hst
  obtain ⟨reg', req, hreq, _, ho⟩ := C22_partial P p st st' now other bv bufs want draws res t cf hsub hm hrec hb hn h
  cases res with
  | none => exact ⟨rfl, ho.2.1⟩
  | some c =>
    exfalso
    obtain ⟨k, a, ⟨l, pm, b, h1, _, h3, h4, h5⟩, hthr, _⟩ := ho
    have hmem := List.mem_of_getElem? h1
    have hh := hx reg' req hreq k c l pm h1 h3
    rw [hng _ hmem, hbll] at h4
    have := (hT now hnow _ hmem).2 b h4
    unfold Help at hh
    linarith

/-- With plain learning such a retrieval does not raise either. -/
theorem C71_fails (H : PyHash) (p : RParams) (m : DecMem) (x : ℝ) (cf : H.CollisionFree) (hsub : p.subsymbolic = true)
    (hbll : p.bll = true) (hopt : p.optimized = false) (hd : 0 < p.decay) (hm : MemReach H false m) (hng : NoneGiven H m) (hn : 0 ≤ p.noise) :
    ∃ T : ℚ, ∀ (P : Py) (st : RBuf) (now : ℚ) (other : Chunk) (bv : BV) (bufs : List (String × Option Chunk)) (want : Option Bool)
      (draws : ℕ → ℝ) (reg' : Reg) (req : Chunk), P.H = H → T ≤ now → st.dm = m → (∀ d, some d ∈ st.recent → Plain d) → GoodSources p bufs →
      resolveChunk P bv false st.reg other = (reg', .ok req) → HelpAtMost H p req bufs draws m x →
      ∃ st', st.retrieve P p now other bv bufs want draws = (st', .ok (Option.none, p.F * Real.exp (-p.f * p.threshold))) := by
  obtain ⟨T1, h1⟩ := C71_forgotten H p m x cf hsub hbll hd hm hng hn
  obtain ⟨T2, h2⟩ := memory_fades p.decay hd p.optimized 0 m.data
  refine ⟨max T1 T2, fun P st now other bv bufs want draws reg' req hP hnow hst hrec hb hreq hx => ?_⟩
  have hm' : MemReach P.H false st.dm := by rw [hP, hst]; exact hm
  obtain ⟨st', res, t, h⟩ := C22_success P p st now other bv bufs want draws (by rw [hP]; exact cf) hsub hm' hb hn (by
    intro q hq e he
    have hpast := (h2 now (le_trans (le_max_right _ _) hnow) q (hst ▸ hq)).1
    rw [hbll, hopt] at he
    exact noRaise now p.decay q.2 _ hd (fun t ht => (hpast t ht).le) (by
      rw [List.count_eq_zero.2 fun hc => lt_irrefl _ (hpast now hc)]; exact Nat.zero_le 1) e he) ⟨reg', req, hreq⟩
  obtain ⟨rfl, rfl⟩ := h1 P st st' now other bv bufs want draws res t hP (le_trans (le_max_left _ _) hnow) hst hrec hb
    (fun r q hr => by rw [hreq] at hr; cases hr; exact hx) h
  exact ⟨st', h⟩

/-! ## Spreading activation is bounded -/

/-- One more than the number of slots in memory. -/
def slotBound (m : DecMem) : ℕ := 1 + (m.data.map (fun p => p.1.slots.length)).sum

theorem fan_bound (m : DecMem) (v : Val) : 1 ≤ fan m v ∧ fan m v ≤ slotBound m := by
  unfold fan slotBound
  refine ⟨Nat.le_add_right _ _, Nat.add_le_add_left (List.sum_le_sum fun p _ => ?_) _⟩
  exact List.countP_le_length

theorem fanNamed_bound (m : DecMem) (s : String) (v : Val) : 1 ≤ fanNamed m s v ∧ fanNamed m s v ≤ slotBound m := by
  unfold fanNamed slotBound
  refine ⟨Nat.le_add_right _ _, Nat.add_le_add_left (List.sum_le_sum fun p _ => ?_) _⟩
  exact List.countP_le_length

theorem occurrences_bound {m : DecMem} {only : Bool} {i : Chunk} {l : List ℚ} (hi : (i, l) ∈ m.data) (v : Val) :
    (max 1 (occurrences only i v)) ≤ slotBound m := by
  have h1 : occurrences only i v ≤ i.slots.length := by
    unfold occurrences sources
    exact le_trans List.countP_le_length (List.length_filterMap_le ..)
  have h2 : i.slots.length ≤ (m.data.map (fun p => p.1.slots.length)).sum :=
    List.single_le_sum (fun _ _ => Nat.zero_le _) _ (List.mem_map_of_mem (f := fun p : Chunk × List ℚ => p.1.slots.length) hi)
  unfold slotBound
  omega

theorem log_ratio_bound {f o n : ℕ} (h1 : 1 ≤ f) (h2 : f ≤ n) (h3 : 1 ≤ o) (h4 : o ≤ n) : |Real.log ((f : ℝ) / (o : ℝ))| ≤ Real.log n := by
  have p1 : (1 : ℝ) ≤ f := by exact_mod_cast h1
  have p2 : (f : ℝ) ≤ n := by exact_mod_cast h2
  have p3 : (1 : ℝ) ≤ o := by exact_mod_cast h3
  have p4 : (o : ℝ) ≤ n := by exact_mod_cast h4
  rw [Real.log_div (by linarith) (by linarith), abs_le]
  have q1 := Real.log_nonneg p1
  have q2 := Real.log_le_log (by linarith) p2
  have q3 := Real.log_nonneg p3
  have q4 := Real.log_le_log (by linarith) p4
  constructor <;> linarith

theorem strength_bound {m : DecMem} {i : Chunk} {l : List ℚ} (hi : (i, l) ∈ m.data) (S : ℝ) (restricted only : Bool) (s : String) (v : Val) :
    |strength m S restricted only s v i| ≤ |S| + Real.log (slotBound m) := by
  have hnn : 0 ≤ Real.log (slotBound m) := Real.log_nonneg (by exact_mod_cast (fan_bound m v).1.trans (fan_bound m v).2)
  have h0 : |(0 : ℝ)| ≤ |S| + Real.log (slotBound m) := by
    rw [abs_zero]; exact add_nonneg (abs_nonneg S) hnn
  have key : ∀ f : ℕ, 1 ≤ f → f ≤ slotBound m → |S - Real.log ((f : ℝ) / ((max 1 (occurrences only i v) : ℕ) : ℝ))| ≤ |S| + Real.log (slotBound m) := by
    intro f h1 h2
    have := log_ratio_bound h1 h2 (le_max_left 1 (occurrences only i v)) (occurrences_bound hi v)
    exact le_trans (abs_sub _ _) (by linarith)
  unfold strength
  split
  · split
    · have := key _ (fanNamed_bound m s v).1 (fanNamed_bound m s v).2
      exact this
    · exact h0
  · split
    · have := key _ (fan_bound m v).1 (fan_bound m v).2
      exact this
    · exact h0

theorem contribution_bound {m : DecMem} {i : Chunk} {l : List ℚ} (hi : (i, l) ∈ m.data) (S : ℝ) (restricted only : Bool) (W : ℝ) (o : Option Chunk) :
    |contribution m S restricted only i W o| ≤ |W| * (|S| + Real.log (slotBound m)) := by
  have hB : 0 ≤ |S| + Real.log (slotBound m) := le_trans (abs_nonneg _) (strength_bound hi S restricted only "" .none)
  cases o with
  | none => simp only [contribution, abs_zero]; exact mul_nonneg (abs_nonneg W) hB
  | some k =>
    simp only [contribution]
    have hsum : ∀ r : List (String × Val), |(r.map (fun p => strength m S restricted only p.1 p.2 i)).sum| ≤ r.length * (|S| + Real.log (slotBound m)) := by
      intro r
      induction r with
      | nil => simp
      | cons p r ih =>
        rw [List.map_cons, List.sum_cons, List.length_cons]
        push_cast
        have := strength_bound hi S restricted only p.1 p.2
        have := abs_add_le (strength m S restricted only p.1 p.2 i) (r.map (fun p => strength m S restricted only p.1 p.2 i)).sum
        linarith
    rw [abs_mul, abs_div]
    rcases Nat.eq_zero_or_pos (sources only k).length with e | e
    · rw [e]
      simp only [Nat.cast_zero, abs_zero, div_zero, zero_mul]
      exact mul_nonneg (abs_nonneg W) hB
    · have hpos : (0 : ℝ) < (sources only k).length := by exact_mod_cast e
      rw [abs_of_pos hpos, div_mul_eq_mul_div, div_le_iff₀ hpos, mul_assoc]
      refine mul_le_mul_of_nonneg_left ?_ (abs_nonneg W)
      have := hsum (sources only k)
      linarith

/-- C71, forgetting without noise and partial matching: if nothing is added to memory, there is a time from which on every retrieval fails,
whatever is asked for and whatever is in the buffers. -/
theorem C71_noiseless (H : PyHash) (p : RParams) (m : DecMem) (cf : H.CollisionFree) (hsub : p.subsymbolic = true)
    (hbll : p.bll = true) (hd : 0 < p.decay) (hm : MemReach H false m) (hng : NoneGiven H m) (hn : p.noise = 0) (hpm : p.partialMatching = false) :
    ∃ T : ℚ, ∀ (P : Py) (st st' : RBuf) (now : ℚ) (other : Chunk) (bv : BV) (bufs : List (String × Option Chunk)) (want : Option Bool)
      (draws : ℕ → ℝ) (res : Option Chunk) (t : ℝ), P.H = H → T ≤ now → st.dm = m → (∀ d, some d ∈ st.recent → Plain d) → GoodSources p bufs →
      st.retrieve P p now other bv bufs want draws = (st', .ok (res, t)) →
      res = Option.none ∧ t = p.F * Real.exp (-p.f * p.threshold) := by
  obtain ⟨T, hT⟩ := C71_forgotten H p m ((p.weights.map fun q => |q.2| * (|p.S| + Real.log (slotBound m))).sum) cf hsub hbll hd hm hng hn.ge
  refine ⟨T, fun P st st' now other bv bufs want draws res t hP hnow hst hrec hb h =>
    hT P st st' now other bv bufs want draws res t hP hnow hst hrec hb (fun reg' req _ k c l pm hk hf => ?_) h⟩
  have hpm0 : pm = 0 := by
    cases hf with
    | exact => rfl
    | partly h => rw [hpm] at h; cases h
  unfold Help
  rw [hpm0, hn, if_pos rfl, add_zero, add_zero]
  have hmem := List.mem_of_getElem? hk
  exact List.sum_le_sum fun q _ => (abs_le.1 (contribution_bound hmem p.S p.restricted p.only q.2 _)).2

/-! ## Keeping -/

theorem retrieved_of_active {P : Py} {p : RParams} {st st' : RBuf} {now : ℚ} {other : Chunk} {bv : BV} {bufs : List (String × Option Chunk)}
    {want : Option Bool} {draws : ℕ → ℝ} {res : Option Chunk} {t : ℝ} (cf : P.H.CollisionFree) (hsub : p.subsymbolic = true)
    (hm : MemReach P.H false st.dm) (hrec : ∀ d, some d ∈ st.recent → Plain d) (hb : GoodSources p bufs) (hn : 0 ≤ p.noise)
    (h : st.retrieve P p now other bv bufs want draws = (st', .ok (res, t))) {k : ℕ} {c : Chunk} {l : List ℚ} {pm b : ℝ} {reg' : Reg} {req : Chunk}
    (hreq : resolveChunk P bv false st.reg other = (reg', .ok req)) (hk : st.dm.data[k]? = some (c, l)) (hp : PassesRecency st.finst st.recent want c)
    (hf : Fits P.H p req c pm)
    (hbl : baselevel now l p.bll p.decay ((cdLook P.H c st.dm.act).map (fun q : ℚ => (q : ℝ))) p.optimized = .ok b)
    (hthr : p.threshold ≤ b + Help p bufs draws st.dm k c pm) : res ≠ Option.none := by
  rintro rfl
  obtain ⟨reg2, req2, hreq2, _, ho⟩ := C22_partial P p st st' now other bv bufs want draws _ t cf hsub hm hrec hb hn h
  rw [hreq] at hreq2
  cases hreq2
  have := ho.1 k c _ ⟨l, pm, b, hk, hp, hf, hbl, rfl⟩
  unfold Help at hthr
  linarith

/-- The base level of a chunk with a recent trace. -/
theorem recent_base (now t : ℚ) (d g : ℝ) (hd : 0 ≤ d) (l : List ℚ) (hl : Past now l) (ht : t ∈ l) (hg : ((now - t : ℚ) : ℝ) ≤ g) (optimized : Bool)
    (ho : optimized = true → d < 1) (act : Option ℝ) :
    ∃ b, baselevel now l true d act optimized = .ok b ∧ -d * Real.log g ≤ b ∧ ∀ a, act = some a → a ≤ b := by
  have hne : l ≠ [] := List.ne_nil_of_mem ht
  have hage : (0 : ℝ) < ((now - t : ℚ) : ℝ) := by exact_mod_cast sub_pos.2 (hl t ht)
  have hlog := Real.log_le_log hage hg
  have plain : ∃ b, baselevel now l true d Option.none optimized = .ok b ∧ -d * Real.log g ≤ b ∧
      ∀ a, baselevel now l true d (some a) optimized = .ok (Real.log (Real.exp b + Real.exp a)) := by
    cases optimized with
    | false =>
      refine ⟨_, C24_formula now d l hl hne, ?_, fun a => by simp [baselevel, hne, bllPlain, logSum_past hl hne]⟩
      have h1 : ((now - t : ℚ) : ℝ) ^ (-d) ≤ (l.map (fun t : ℚ => (((now - t : ℚ) : ℝ)) ^ (-d))).sum := by
        refine List.single_le_sum (fun x hx => ?_) _ (List.mem_map_of_mem (f := fun t : ℚ => (((now - t : ℚ) : ℝ)) ^ (-d)) ht)
        obtain ⟨s, hs, rfl⟩ := List.mem_map.1 hx
        exact (Real.rpow_pos_of_pos (by exact_mod_cast sub_pos.2 (hl s hs)) _).le
      have h2 := Real.log_le_log (Real.rpow_pos_of_pos hage _) h1
      rw [Real.log_rpow hage] at h2
      have h3 := mul_le_mul_of_nonneg_left hlog hd
      unfold baseLevel
      linarith
    | true =>
      have hd1 := ho rfl
      obtain ⟨m, hm⟩ : ∃ m, l.max? = some m := by
        cases h : l.max? with
        | none => simp at h; exact absurd h hne
        | some m => exact ⟨m, rfl⟩
      have hmm := List.max?_mem hm
      have hmt : t ≤ m := (List.max?_eq_some_iff.1 hm).2 t ht
      have hpos : (1 : ℝ) ≤ (l.length : ℝ) / (1 - d) := by
        rw [le_div_iff₀ (by linarith)]
        have : (1 : ℝ) ≤ l.length := by exact_mod_cast List.length_pos_of_mem ht
        linarith
      have e1 : d ≠ 1 := hd1.ne
      have e2 : ¬ (l.length : ℝ) / (1 - d) ≤ 0 := by linarith
      have e3 : ¬ now ≤ m := not_le.2 (hl m hmm)
      refine ⟨Real.log (l.length / (1 - d)) - d * Real.log ((now : ℝ) - (m : ℝ)), by simp [baselevel, hne, bllOptimized, e1, e2, e3, hm], ?_,
        fun a => by simp [baselevel, hne, bllOptimized, e1, e2, e3, hm]⟩
      have h1 : 0 ≤ Real.log ((l.length : ℝ) / (1 - d)) := Real.log_nonneg hpos
      have hmpos : (0 : ℝ) < (now : ℝ) - (m : ℝ) := by
        have := hl m hmm
        have : (m : ℝ) < now := by exact_mod_cast this
        linarith
      have h2 : (now : ℝ) - (m : ℝ) ≤ g := by
        have : (t : ℝ) ≤ m := by exact_mod_cast hmt
        push_cast at hg
        linarith
      have h3 := mul_le_mul_of_nonneg_left (Real.log_le_log hmpos h2) hd
      linarith
  obtain ⟨b, h1, h2, h3⟩ := plain
  cases act with
  | none => exact ⟨b, h1, h2, by simp⟩
  | some a =>
    refine ⟨_, h3 a, ?_, fun a' ha => ?_⟩
    · refine le_trans h2 ?_
      rw [Real.le_log_iff_exp_le (by positivity)]
      linarith [Real.exp_pos a]
    · cases ha
      rw [Real.le_log_iff_exp_le (by positivity)]
      linarith [Real.exp_pos b]

/-- C71, keeping: a chunk that fits the request and was last stored at most `g` seconds ago is active enough for the retrieval to succeed, if
the threshold is at most `- decay * ln g` plus what it gets in addition. -/
theorem C71_kept (P : Py) (p : RParams) (st st' : RBuf) (now : ℚ) (other : Chunk) (bv : BV) (bufs : List (String × Option Chunk)) (want : Option Bool)
    (draws : ℕ → ℝ) (res : Option Chunk) (t : ℝ) (cf : P.H.CollisionFree) (hsub : p.subsymbolic = true) (hbll : p.bll = true) (hd : 0 ≤ p.decay)
    (hopt : p.optimized = true → p.decay < 1)
    (hm : MemReach P.H false st.dm) (hrec : ∀ d, some d ∈ st.recent → Plain d) (hb : GoodSources p bufs) (hn : 0 ≤ p.noise)
    (h : st.retrieve P p now other bv bufs want draws = (st', .ok (res, t))) (k : ℕ) (c : Chunk) (l : List ℚ) (pm : ℝ) (reg' : Reg) (req : Chunk)
    (hreq : resolveChunk P bv false st.reg other = (reg', .ok req)) (hk : st.dm.data[k]? = some (c, l)) (hp : PassesRecency st.finst st.recent want c)
    (hf : Fits P.H p req c pm) (hpast : Past now l) (s : ℚ) (hs : s ∈ l) (g : ℝ) (hg : ((now - s : ℚ) : ℝ) ≤ g)
    (hthr : p.threshold ≤ -p.decay * Real.log g + Help p bufs draws st.dm k c pm) : res ≠ Option.none := by
  obtain ⟨b, h1, h2, _⟩ := recent_base now s p.decay g hd l hpast hs hg p.optimized hopt ((cdLook P.H c st.dm.act).map (fun q : ℚ => (q : ℝ)))
  exact retrieved_of_active cf hsub hm hrec hb hn h hreq hk hp hf (by rw [hbll]; exact h1) (by linarith)

/-- C71, given activations: a chunk with an activation given by the modeller is never forgotten, if this activation together with what the chunk
gets in addition reaches the threshold. -/
theorem C71_given (P : Py) (p : RParams) (st st' : RBuf) (now : ℚ) (other : Chunk) (bv : BV) (bufs : List (String × Option Chunk)) (want : Option Bool)
    (draws : ℕ → ℝ) (res : Option Chunk) (t : ℝ) (cf : P.H.CollisionFree) (hsub : p.subsymbolic = true) (hbll : p.bll = true) (hd : 0 ≤ p.decay)
    (hopt : p.optimized = true → p.decay < 1)
    (hm : MemReach P.H false st.dm) (hrec : ∀ d, some d ∈ st.recent → Plain d) (hb : GoodSources p bufs) (hn : 0 ≤ p.noise)
    (h : st.retrieve P p now other bv bufs want draws = (st', .ok (res, t))) (k : ℕ) (c : Chunk) (l : List ℚ) (pm : ℝ) (reg' : Reg) (req : Chunk)
    (hreq : resolveChunk P bv false st.reg other = (reg', .ok req)) (hk : st.dm.data[k]? = some (c, l)) (hp : PassesRecency st.finst st.recent want c)
    (hf : Fits P.H p req c pm) (hpast : Past now l) (a : ℚ) (ha : cdLook P.H c st.dm.act = some a)
    (hthr : p.threshold ≤ a + Help p bufs draws st.dm k c pm) : res ≠ Option.none := by
  have : ∃ b, baselevel now l p.bll p.decay ((cdLook P.H c st.dm.act).map (fun q : ℚ => (q : ℝ))) p.optimized = .ok b ∧ (a : ℝ) ≤ b := by
    rw [ha, hbll]
    cases l with
    | nil => exact ⟨a, by simp [baselevel], le_refl _⟩
    | cons s l =>
      obtain ⟨b, h1, _, h3⟩ := recent_base now s p.decay _ hd _ hpast (.head _) (le_refl _) p.optimized hopt ((some a).map (fun q : ℚ => (q : ℝ)))
      exact ⟨b, h1, h3 _ rfl⟩
  obtain ⟨b, h1, h2⟩ := this
  exact retrieved_of_active cf hsub hm hrec hb hn h hreq hk hp hf h1 (by linarith)

/-! ## Example -/

/-- Memory with a fact stored at time 0. -/
noncomputable def exStored (H : PyHash) : DecMem := (DecMem.empty.step H (.add (.chunk (exFact "1")) (.one 0))).1

/-- Plain learning with decay 0.5 and threshold -1. -/
noncomputable def exDecay : RParams := ⟨true, false, 1, true, 1 / 2, false, [], 0, false, false, 0, -1, 1, 1, 1 / 20, []⟩

/-- The hypotheses of the theorems are met: the fact is retrieved at time 1, and from some time on it is not. -/
example (H : PyHash) (cf : H.CollisionFree) :
    (∃ st' t c, (⟨[], exStored H, 0, [], Option.none⟩ : RBuf).retrieve (exPy H) exDecay 1 (exFact "1") BV.init [] Option.none (fun _ => 0) =
      (st', .ok (some c, t))) ∧
    ∃ T : ℚ, ∀ now, T ≤ now → ∃ st', (⟨[], exStored H, 0, [], Option.none⟩ : RBuf).retrieve (exPy H) exDecay now (exFact "1") BV.init [] Option.none
      (fun _ => 0) = (st', .ok (Option.none, exDecay.F * Real.exp (-exDecay.f * exDecay.threshold))) := by
  have hm : MemReach H false (exStored H) := .op .new (by simpa [PlainOp] using (exFact_data "1").plain)
  have hr0 : round4 0 = 0 := by simpa using round4_of_int 0
  have hdata : (exStored H).data = [(exFact "1", [0])] := by
    simp [exStored, DecMem.step, DecMem.add, addOne_data, DecMem.empty, cdLook, cdSet, TimeArg.traces, hr0]
  have hact : (exStored H).act = [] := by
    simp only [exStored, DecMem.step, DecMem.add]; rw [addOne_act]; rfl
  have hng : NoneGiven H (exStored H) := by intro q _; rw [hact]; rfl
  have hsrc : GoodSources exDecay [] := ⟨by simp [alook], by simp [exDecay]⟩
  obtain ⟨reg', req, hreq⟩ := resolveChunk_success (P := exPy H) (bv := BV.init) (ni := false) (reg := []) (other := exFact "1") cf .empty
    (by simp [Named, exFact]) (fun n x hx => let g := exFact_good (by decide) (by decide) (by decide) n x hx; ⟨g.1, g.2.1, g.2.2.1⟩) (.inr ⟨by simp [exFact], by simp [exFact], by simp [exFact], rfl, by
      intro n x hx; rw [(exFact_ment hx).1]; rfl⟩)
  have hrq := (resolveChunk_spec (P := exPy H) cf .empty (by simp [Named, exFact]) hreq).1
  have hle : (req.le H BV.init (exFact "1")).1 = true := by
    rw [le_asked cf hrq (exFact_good (by decide) (by decide) (by decide)) (exFact_data _) (by
      intro n x hx hd
      obtain ⟨_, rfl⟩ := exFact_ment hx
      have := exFact_dem hd
      simp at this)]
    exact (exFact_asked (by decide)).2 rfl
  constructor
  · obtain ⟨st', res, t, h⟩ := C22_success (exPy H) exDecay ⟨[], exStored H, 0, [], Option.none⟩ 1 (exFact "1") BV.init [] Option.none (fun _ => 0) cf rfl
      hm hsrc (by simp [exDecay]) (by
        intro q hq e he
        simp only [hdata, List.mem_singleton] at hq
        subst hq
        exact noRaise 1 (1 / 2) [0] _ (by norm_num) (by simp) (by simp) e he) ⟨reg', req, hreq⟩
    have := C71_kept (exPy H) exDecay ⟨[], exStored H, 0, [], Option.none⟩ st' 1 (exFact "1") BV.init [] Option.none (fun _ => 0) res t cf rfl rfl
      (by norm_num [exDecay]) (by simp [exDecay]) hm (by simp) hsrc (by simp [exDecay]) h 0 (exFact "1") [0] 0 reg' req hreq (by simp [hdata])
      (by intro h; simp at h) (.exact rfl hle) (by simp [Past]) 0 (by simp) 1 (by norm_num) (by norm_num [exDecay, Help])
    cases res with
    | none => exact absurd rfl this
    | some c => exact ⟨st', t, c, h⟩
  · obtain ⟨T, hT⟩ := C71_fails H exDecay (exStored H) 0 cf rfl rfl rfl (by norm_num [exDecay]) hm hng (by simp [exDecay])
    refine ⟨T, fun now hnow => hT (exPy H) _ now (exFact "1") BV.init [] Option.none (fun _ => 0) reg' req rfl hnow rfl (by simp) hsrc hreq ?_⟩
    intro k c l pm _ hf
    cases hf with
    | exact => simp [Help, exDecay]
    | partly h => simp [exDecay] at h

end Verif.Props
