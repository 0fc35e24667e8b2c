import Verif.Spec.Subsymbolic
import Verif.Model.Subsymbolic
import Mathlib.Data.List.MinMax
/-! # Properties C24, C25 and C26: base-level activation and latency -/
namespace Verif.Props
open Verif Verif.Spec

theorem sum_pow_pos {now : ℚ} {d : ℝ} : ∀ {times : List ℚ}, Past now times → times ≠ [] →
    0 < (times.map (fun t : ℚ => (((now - t : ℚ) : ℝ)) ^ (-d))).sum
  | [t], h, _ => by
    have : (0 : ℝ) < ((now - t : ℚ) : ℝ) := by exact_mod_cast sub_pos.mpr (h t (by simp))
    simpa using Real.rpow_pos_of_pos this (-d)
  | t :: u :: r, h, _ => by
    have h1 : (0 : ℝ) < ((now - t : ℚ) : ℝ) := by exact_mod_cast sub_pos.mpr (h t (by simp))
    have h2 := sum_pow_pos (d := d) (times := u :: r) (fun x hx => h x (by simp [hx])) (by simp)
    rw [List.map_cons, List.sum_cons]
    exact add_pos (Real.rpow_pos_of_pos h1 _) h2

theorem logSum_past {now : ℚ} {d : ℝ} {times : List ℚ} (h : Past now times) (hne : times ≠ []) :
    logSum now d times = .ok (baseLevel now d times) := by
  have hw : ¬ ∃ t ∈ times, powWarns now d t := by
    rintro ⟨t, ht, ⟨rfl, _⟩ | ⟨h', _⟩⟩
    · exact lt_irrefl _ (h _ ht)
    · exact lt_asymm (h _ ht) h'
  have hp := sum_pow_pos (d := d) h hne
  simp only [logSum, hw, if_false, baseLevel]
  push_cast at hp ⊢
  simp [hp]

/-- C24: with plain base-level learning the activation of a chunk whose traces are all in the past is ln of the sum of
age^-d. -/
theorem C24_formula (now : ℚ) (d : ℝ) (times : List ℚ) (h : Past now times) (hne : times ≠ []) :
    baselevel now times true d Option.none false = .ok (baseLevel now d times) := by
  simp [baselevel, hne, bllPlain, logSum_past h hne]

theorem baseLevel_lt {n n' : ℚ} {d : ℝ} {l l' : List ℚ} (hl : Past n l) (hne : l ≠ [])
    (h : (l.map (fun t : ℚ => (((n - t : ℚ) : ℝ)) ^ (-d))).sum < (l'.map (fun t : ℚ => (((n' - t : ℚ) : ℝ)) ^ (-d))).sum) :
    baseLevel n d l < baseLevel n' d l' := Real.log_lt_log (sum_pow_pos hl hne) h

/-- C24, practice: one more past trace, wherever it is put, strictly increases the activation. -/
theorem C24_practice (now : ℚ) (d : ℝ) (pre post : List ℚ) (t : ℚ) (h : Past now (pre ++ t :: post)) (hne : pre ++ post ≠ []) :
    ∃ a b, baselevel now (pre ++ post) true d Option.none false = .ok a ∧
      baselevel now (pre ++ t :: post) true d Option.none false = .ok b ∧ a < b := by
  have h' : Past now (pre ++ post) := fun x hx => h x (by
    rcases List.mem_append.mp hx with hx | hx
    · exact List.mem_append_left _ hx
    · exact List.mem_append_right _ (by simp [hx]))
  refine ⟨_, _, C24_formula now d _ h' hne, C24_formula now d _ h (by simp), baseLevel_lt h' hne ?_⟩
  have : (0 : ℝ) < ((now - t : ℚ) : ℝ) := by exact_mod_cast sub_pos.mpr (h t (by simp))
  have := Real.rpow_pos_of_pos this (-d)
  simp only [List.map_append, List.sum_append, List.map_cons, List.sum_cons]
  linarith

/-- C24, forgetting: waiting strictly decreases the activation. -/
theorem C24_forgetting (now later : ℚ) (d : ℝ) (hd : 0 < d) (times : List ℚ) (h : Past now times) (hne : times ≠ [])
    (hl : now < later) :
    ∃ a b, baselevel now times true d Option.none false = .ok a ∧ baselevel later times true d Option.none false = .ok b ∧ b < a := by
  have h' : Past later times := fun t ht => lt_trans (h t ht) hl
  refine ⟨_, _, C24_formula now d _ h hne, C24_formula later d _ h' hne, baseLevel_lt h' hne ?_⟩
  refine List.sum_lt_sum_of_ne_nil hne _ _ ?_
  intro t ht
  have h1 : (0 : ℝ) < ((now - t : ℚ) : ℝ) := by exact_mod_cast sub_pos.mpr (h t ht)
  have h2 : ((now - t : ℚ) : ℝ) < ((later - t : ℚ) : ℝ) := by exact_mod_cast sub_lt_sub_right hl t
  exact Real.rpow_lt_rpow_of_neg h1 h2 (by linarith)

/-- C24, recency: replacing a trace by a more recent one strictly increases the activation. -/
theorem C24_recency (now : ℚ) (d : ℝ) (hd : 0 < d) (pre post : List ℚ) (t u : ℚ) (h : Past now (pre ++ t :: post)) (htu : t < u)
    (hu : u < now) :
    ∃ a b, baselevel now (pre ++ t :: post) true d Option.none false = .ok a ∧
      baselevel now (pre ++ u :: post) true d Option.none false = .ok b ∧ a < b := by
  have h' : Past now (pre ++ u :: post) := by
    intro x hx
    rcases List.mem_append.mp hx with hx | hx
    · exact h x (List.mem_append_left _ hx)
    · rcases List.mem_cons.mp hx with rfl | hx
      · exact hu
      · exact h x (List.mem_append_right _ (by simp [hx]))
  refine ⟨_, _, C24_formula now d _ h (by simp), C24_formula now d _ h' (by simp), baseLevel_lt h (by simp) ?_⟩
  have h1 : (0 : ℝ) < ((now - u : ℚ) : ℝ) := by exact_mod_cast sub_pos.mpr hu
  have h2 : ((now - u : ℚ) : ℝ) < ((now - t : ℚ) : ℝ) := by exact_mod_cast sub_lt_sub_left htu now
  have h3 := Real.rpow_lt_rpow_of_neg h1 h2 (show -d < 0 by linarith)
  simp only [List.map_append, List.sum_append, List.map_cons, List.sum_cons]
  linarith

/-- Two traces half a second and one second ago. -/
example : ∃ a, baselevel 1 [0, 1 / 2] true (1 / 2) Option.none false = .ok a := by
  refine ⟨_, C24_formula 1 (1 / 2) [0, 1 / 2] ?_ (by simp)⟩
  intro t ht
  simp only [List.mem_cons, List.not_mem_nil, or_false] at ht
  rcases ht with rfl | rfl <;> norm_num

open Classical in
/-- The whole of C25: whatever traces were stored at or before `now`. -/
def C25_full : Prop := ∀ (now : ℚ) (d : ℝ) (times : List ℚ) (optimized : Bool), 0 < d → d < 1 → (∀ t ∈ times, t ≤ now) →
  (times.filter (fun t => decide (t ≠ now)) = [] → baselevel now times true d Option.none optimized = .error .unboundLocal) ∧
  (times.filter (fun t => decide (t ≠ now)) ≠ [] → ∃ a, baselevel now times true d Option.none optimized = .ok a ∧
    (optimized = false → a = baseLevel now d (times.filter (fun t => decide (t ≠ now)))))

theorem max_now {now : ℚ} {times : List ℚ} (hle : ∀ t ∈ times, t ≤ now) (hin : now ∈ times) : times.max? = some now := by
  rw [List.max?_eq_some_iff]
  exact ⟨hin, hle⟩

theorem warns_now {now : ℚ} {d : ℝ} (hd : 0 < d) {times : List ℚ} (hin : now ∈ times) :
    logSum now d times = .error .runtimeWarning := by
  have : ∃ t ∈ times, powWarns now d t := ⟨now, hin, .inl ⟨rfl, hd⟩⟩
  simp [logSum, this]

/-- Two traces stored at the current instant crash the retrieval with a RuntimeWarning, if learning is plain. -/
theorem C25_twice (now : ℚ) (d : ℝ) (hd : 0 < d) (times : List ℚ) (hle : ∀ t ∈ times, t ≤ now) (h : 2 ≤ times.count now)
    (act : Option ℝ) : baselevel now times true d act false = .error .runtimeWarning := by
  have hin : now ∈ times := List.count_pos_iff.mp (by omega)
  have hne : times ≠ [] := List.ne_nil_of_mem hin
  have hin' : now ∈ times.erase now := List.count_pos_iff.mp (by rw [List.count_erase_self]; omega)
  have hne' : times.erase now ≠ [] := List.ne_nil_of_mem hin'
  simp [baselevel, hne, bllPlain, warns_now hd hin, dropMax, max_now hle hin, hne', warns_now hd hin']

/-- A single trace stored at the current instant crashes the retrieval with a ValueError, if learning is optimized. -/
theorem C25_optimized (now : ℚ) (d : ℝ) (hd : d < 1) (times : List ℚ) (hle : ∀ t ∈ times, t ≤ now) (hin : now ∈ times)
    (act : Option ℝ) : baselevel now times true d act true = .error .value := by
  have hne : times ≠ [] := List.ne_nil_of_mem hin
  have h1 : d ≠ 1 := hd.ne
  have h2 : ¬ (times.length : ℝ) / (1 - d) ≤ 0 := by
    have : (0 : ℝ) < times.length := by exact_mod_cast List.length_pos_of_mem hin
    have := div_pos this (sub_pos.mpr hd)
    linarith
  simp [baselevel, hne, bllOptimized, h1, h2, max_now hle hin]

/-- C25 is false. -/
theorem C25_refuted : ¬ C25_full := by
  intro h
  have h1 := (h 1 (1 / 2) [1] true (by norm_num) (by norm_num) (by simp)).1 (by simp)
  rw [C25_optimized 1 (1 / 2) (by norm_num) [1] (by simp) (by simp)] at h1
  cases h1

open Classical in
/-- C25 for plain learning and at most one trace stored at the current instant. -/
theorem C25_partial (now : ℚ) (d : ℝ) (times : List ℚ) (hd : 0 < d) (hle : ∀ t ∈ times, t ≤ now) (hc : times.count now ≤ 1) :
    (times.filter (fun t => decide (t ≠ now)) = [] → baselevel now times true d Option.none false = .error .unboundLocal) ∧
    (times.filter (fun t => decide (t ≠ now)) ≠ [] →
      baselevel now times true d Option.none false = .ok (baseLevel now d (times.filter (fun t => decide (t ≠ now))))) := by
  by_cases hin : now ∈ times
  · have hne : times ≠ [] := List.ne_nil_of_mem hin
    have herase : times.erase now = times.filter (fun t => decide (t ≠ now)) := by
      have hn : (times.count now) = 1 := by
        have := List.count_pos_iff.mpr hin; omega
      clear hle hne
      induction times with
      | nil => simp at hin
      | cons a r ih =>
        by_cases ha : a = now
        · subst ha
          have : a ∉ r := by
            rw [List.count_cons_self] at hn
            exact List.count_eq_zero.mp (by omega)
          rw [List.erase_cons_head, List.filter_cons_of_neg (by simp), List.filter_eq_self.mpr]
          intro t ht; simp; rintro rfl; exact this ht
        · have hin' : now ∈ r := by
            rcases List.mem_cons.mp hin with h | h
            · exact absurd h.symm ha
            · exact h
          rw [List.count_cons_of_ne ha] at hn hc
          rw [List.erase_cons_tail (by simpa using ha), List.filter_cons_of_pos (by simpa using ha), ih hc hin' hn]
    have hpast : Past now (times.filter (fun t => decide (t ≠ now))) := by
      intro t ht
      simp only [List.mem_filter, decide_eq_true_eq] at ht
      exact lt_of_le_of_ne (hle t ht.1) ht.2
    constructor
    · intro he
      simp only [baselevel, hne, bllPlain, warns_now hd hin, dropMax, max_now hle hin, herase, he, if_true, if_false,
        Bool.false_eq_true]
    · intro he
      simp only [baselevel, hne, bllPlain, warns_now hd hin, dropMax, max_now hle hin, herase, he, if_true, if_false,
        logSum_past hpast he, Bool.false_eq_true]
  · have hf : times.filter (fun t => decide (t ≠ now)) = times := by
      rw [List.filter_eq_self]; intro t ht; simp; rintro rfl; exact hin ht
    rw [hf]
    constructor
    · rintro rfl; simp [baselevel]
    · intro hne
      exact C24_formula now d times (fun t ht => lt_of_le_of_ne (hle t ht) (fun h => hin (h ▸ ht))) hne

/-- One past trace and one of the current instant. -/
example : baselevel 1 [0, 1] true (1 / 2) Option.none false = .ok (baseLevel 1 (1 / 2) [0]) := by
  have := (C25_partial 1 (1 / 2) [0, 1] (by norm_num) (by intro t ht; simp at ht; rcases ht with rfl | rfl <;> norm_num)
    (by simp [List.count_cons])).2
  simpa using this

/-- C26: latency is positive and strictly decreasing in activation; a successful retrieval (activation at least the
threshold) is not slower than a failed one, and strictly faster above the threshold. -/
theorem C26_latency (F f : ℝ) (hF : 0 < F) (hf : 0 < f) :
    (∀ a, 0 < retrievalLatency a F f) ∧ (∀ a b, a < b → retrievalLatency b F f < retrievalLatency a F f) ∧
    (∀ a thr, retrievalSuccess a thr = true → retrievalLatency a F f ≤ retrievalLatency thr F f) ∧
    (∀ a thr, retrievalSuccess a thr = true ↔ thr ≤ a) := by
  have hdec : ∀ a b, a < b → retrievalLatency b F f < retrievalLatency a F f := by
    intro a b hab
    unfold retrievalLatency
    apply mul_lt_mul_of_pos_left _ hF
    apply Real.exp_lt_exp.mpr
    nlinarith
  have hs : ∀ a thr, retrievalSuccess a thr = true ↔ thr ≤ a := by simp [retrievalSuccess]
  refine ⟨fun a => mul_pos hF (Real.exp_pos _), hdec, ?_, hs⟩
  intro a thr h
  rcases ((hs a thr).mp h).lt_or_eq with h | rfl
  · exact (hdec _ _ h).le
  · exact le_refl _

end Verif.Props
