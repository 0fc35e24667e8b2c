import Verif.Lemmas.SimReach
import Verif.Spec.Pace
/-! # How many rules can be selected and fire in a given time -/
namespace Verif
open Verif.Spec

variable {rf g L : ℚ}

/-- Whether it is the report that a rule was selected. -/
def Act.isSel : Act → Bool
  | .selected _ => true
  | _ => false

/-- Whether it is the report that a rule fired. -/
def Act.isFired : Act → Bool
  | .fired _ => true
  | _ => false

/-- A rule fires at least `g` after it was selected. -/
def Slow (rf g : ℚ) : Prop := 0 ≤ g ∧ ∀ t, OnGrid t → t + g ≤ round4 (t + rf)

theorem slow_grid (h : OnGrid rf) (h0 : 0 ≤ rf) : Slow rf rf := by
  refine ⟨h0, fun t ht => ?_⟩
  obtain ⟨a, rfl⟩ := h
  obtain ⟨b, rfl⟩ := ht
  rw [round4_onGrid ⟨b + a, by push_cast; ring⟩]

theorem slow_close (h : 1 / 20000 ≤ rf) : Slow rf (rf - 1 / 20000) := by
  refine ⟨by linarith, fun t _ => ?_⟩
  have := abs_le.1 (round4_close (t + rf))
  linarith [this.2]

/-- What is known in a stage when `n` rules were selected and `m` have fired, and no report was later than `u`. -/
def Paced (g L u : ℚ) (n m : ℕ) : Stage → Prop
  | .idle => n * g ≤ u - L ∧ m * g ≤ u - L
  | .conf t => OnGrid t ∧ t ≤ u ∧ n * g ≤ t - L ∧ m * g ≤ t - L
  | .sel _ t => OnGrid t ∧ t ≤ u ∧ n * g ≤ t - L + g ∧ m * g ≤ t - L
  | .comp _ t => OnGrid t ∧ t ≤ u ∧ n * g ≤ t - L + g ∧ m * g ≤ t - L

theorem paced_later {u v : ℚ} {n m : ℕ} {st : Stage} (h : Paced g L u n m st) (huv : u ≤ v) : Paced g L v n m st := by
  cases st with
  | idle => exact ⟨by linarith [h.1], by linarith [h.2]⟩
  | conf t => exact ⟨h.1, h.2.1.trans huv, h.2.2⟩
  | sel n t => exact ⟨h.1, h.2.1.trans huv, h.2.2⟩
  | comp n t => exact ⟨h.1, h.2.1.trans huv, h.2.2⟩

theorem paced_next (hs : Slow rf g) {u : ℚ} {a : Act} {n m : ℕ} {st st' : Stage} (hc : Cyclic a) (h : Paced g L u n m st) (hn : st.next rf u a = some st') (hu : OnGrid u) :
    Paced g L u (n + if a.isSel then 1 else 0) (m + if a.isFired then 1 else 0) st' := by
  have hg := hs.1
  cases st with
  | idle =>
    cases a <;> first | exact hc.elim | (simp [Stage.next, hc] at hn; done) | skip
    simp only [Stage.next] at hn
    split at hn
    · cases hn
      exact ⟨hu, le_rfl, by simpa [Act.isSel] using h.1, by simpa [Act.isFired] using h.2⟩
    · cases hn
  | conf t =>
    obtain ⟨h1, h2, h3, h4⟩ := h
    cases a <;> first | exact hc.elim | (simp [Stage.next, hc] at hn; done) | skip
    · simp only [Stage.next] at hn
      split at hn
      · rename_i he; cases hn; subst he
        refine ⟨h1, le_rfl, ?_, by simpa [Act.isFired] using h4⟩
        simp [Act.isSel]; linarith
      · cases hn
    · simp only [Stage.next] at hn
      split at hn
      · rename_i he; cases hn; subst he
        exact ⟨by simpa [Act.isSel] using h3, by simpa [Act.isFired] using h4⟩
      · cases hn
  | sel nm t =>
    obtain ⟨h1, h2, h3, h4⟩ := h
    have ht := hs.2 t h1
    cases a <;> first | exact hc.elim | (simp [Stage.next, hc] at hn; done) | skip
    all_goals
      simp only [Stage.next] at hn
      split at hn
      · rename_i he; cases hn
        simp only [Paced, Act.isSel, Act.isFired, if_true, if_false, Nat.add_zero, Bool.false_eq_true]
        push_cast
        first
          | (obtain ⟨-, rfl⟩ := he; constructor <;> linarith)
          | (subst he; exact ⟨h1, h2, h3, h4⟩)
      · cases hn
  | comp nm t =>
    obtain ⟨h1, h2, h3, h4⟩ := h
    have ht := hs.2 t h1
    cases a <;> first | exact hc.elim | (simp [Stage.next, hc] at hn; done) | skip
    simp only [Stage.next] at hn
    split at hn
    · rename_i he; cases hn
      simp only [Paced, Act.isSel, Act.isFired, if_true, if_false, Nat.add_zero, Bool.false_eq_true]
      push_cast
      obtain ⟨-, rfl⟩ := he; constructor <;> linarith
    · cases hn

theorem paced_reports (hs : Slow rf g) (l : List (ℚ × Act)) : (∀ a ∈ l, Cyclic a.2 ∧ OnGrid a.1 ∧ L ≤ a.1) → l.Pairwise (fun a b => a.1 ≤ b.1) → ∀ st, stageOf rf l = some st →
    ∀ u, L ≤ u → (∀ a ∈ l, a.1 ≤ u) → Paced g L u (l.countP (fun a => a.2.isSel)) (l.countP (fun a => a.2.isFired)) st := by
  induction l using List.reverseRecOn with
  | nil =>
    intro _ _ st h u hu _
    obtain rfl : Stage.idle = st := by simpa [stageOf] using h
    simp only [List.countP_nil]
    exact ⟨by push_cast; linarith, by push_cast; linarith⟩
  | append_singleton l a ih =>
    intro ha hp st h u hu hlast
    rw [stageOf_append] at h
    obtain ⟨st0, h0, h1⟩ := Option.bind_eq_some_iff.1 h
    obtain ⟨hp1, -, hp2⟩ := List.pairwise_append.1 hp
    have haa := ha a (by simp)
    have := ih (fun b hb => ha b (List.mem_append.2 (.inl hb))) hp1 st0 h0 a.1 haa.2.2 fun b hb => hp2 b hb a (by simp)
    have := paced_next hs haa.1 this h1 haa.2.1
    have := paced_later this (hlast a (by simp))
    rw [List.countP_append, List.countP_append, List.countP_singleton, List.countP_singleton]
    exact this

/-- Nothing was reported before `L`. -/
def Since (L : ℚ) (s : Sim) : Prop := L ≤ s.now ∧ ∀ x ∈ s.trace, L ≤ x.1

theorem countP_reports (f : Act → Bool) (hf : ∀ a, f a = true → Cyclic a) (l : List (ℚ × Ev)) : (timedReports l).countP (fun a => f a.2) = l.countP (fun x => f x.2.act) := by
  unfold timedReports
  rw [List.countP_filter, List.countP_map]
  refine List.countP_congr fun x _ => ?_
  simp only [Function.comp, Bool.and_eq_true, decide_eq_true_eq]
  exact ⟨fun h => h.1, fun h => ⟨h, hf _ h⟩⟩

theorem paced_fine {s : Sim} (hs : Slow rf g) (h : Fine rf s) (hL : Since L s) :
    (s.trace.countP (fun x => x.2.act.isSel) : ℚ) * g ≤ s.now - L + g ∧ (s.trace.countP (fun x => x.2.act.isFired) : ℚ) * g ≤ s.now - L := by
  obtain ⟨hi, st, c, hr⟩ := h
  have hm : ∀ a ∈ timedReports s.trace, Cyclic a.2 ∧ ∃ x ∈ s.trace, a.1 = x.2.time := fun a ha => by
    obtain ⟨h1, h2⟩ := List.mem_filter.1 ha
    obtain ⟨x, hx, rfl⟩ := List.mem_map.1 h1
    exact ⟨by simpa using h2, x, hx, rfl⟩
  have hp : (timedReports s.trace).Pairwise (fun a b => a.1 ≤ b.1) := List.Pairwise.filter _ (List.pairwise_map.2 hi.order)
  have := paced_reports (L := L) hs (timedReports s.trace) (fun a ha => ?_) hp st hr.stage s.now hL.1 fun a ha => ?_
  · rw [countP_reports Act.isSel (fun a h => by cases a <;> first | trivial | cases h), countP_reports Act.isFired (fun a h => by cases a <;> first | trivial | cases h)] at this
    have hg := hs.1
    cases st with
    | idle => exact ⟨by linarith [this.1], this.2⟩
    | conf t => obtain ⟨-, h2, h3, h4⟩ := this; exact ⟨by linarith, by linarith⟩
    | sel n t => obtain ⟨-, h2, h3, h4⟩ := this; exact ⟨by linarith, by linarith⟩
    | comp n t => obtain ⟨-, h2, h3, h4⟩ := this; exact ⟨by linarith, by linarith⟩
  · obtain ⟨hc, x, hx, he⟩ := hm a ha
    obtain ⟨b1, b2, -⟩ := hi.trace x hx
    rw [he]
    exact ⟨hc, b2, b1 ▸ hL.2 x hx⟩
  · obtain ⟨-, x, hx, he⟩ := hm a ha
    rw [he]; exact (hi.trace x hx).2.2

/-! ## Times between firings -/

/-- The times of the reports of a kind. -/
def timesOf (f : Act → Bool) (l : List (ℚ × Act)) : List ℚ := l.filterMap (fun a => if f a.2 then some a.1 else Option.none)

theorem timesOf_snoc (f : Act → Bool) (l : List (ℚ × Act)) (a : ℚ × Act) : timesOf f (l ++ [a]) = timesOf f l ++ if f a.2 then [a.1] else [] := by
  unfold timesOf
  rw [List.filterMap_append]
  congr 1
  rw [List.filterMap_cons]
  cases f a.2 <;> simp

/-- What is known of the times of selections and firings in a stage, when no report was later than `u`. -/
def Spaced (g u : ℚ) (S F : List ℚ) : Stage → Prop
  | .idle => (∀ a ∈ S, a + g ≤ u) ∧ ∀ b ∈ F, b ≤ u
  | .conf t => OnGrid t ∧ t ≤ u ∧ (∀ a ∈ S, a + g ≤ t) ∧ ∀ b ∈ F, b ≤ t
  | .sel _ t => OnGrid t ∧ t ≤ u ∧ (∃ S', S = S' ++ [t] ∧ ∀ a ∈ S', a + g ≤ t) ∧ ∀ b ∈ F, b ≤ t
  | .comp _ t => OnGrid t ∧ t ≤ u ∧ (∃ S', S = S' ++ [t] ∧ ∀ a ∈ S', a + g ≤ t) ∧ ∀ b ∈ F, b ≤ t

theorem spaced_later {u v : ℚ} {S F : List ℚ} {st : Stage} (h : Spaced g u S F st) (huv : u ≤ v) : Spaced g v S F st := by
  cases st with
  | idle => exact ⟨fun a ha => (h.1 a ha).trans huv, fun a ha => (h.2 a ha).trans huv⟩
  | conf t => exact ⟨h.1, h.2.1.trans huv, h.2.2⟩
  | sel n t => exact ⟨h.1, h.2.1.trans huv, h.2.2⟩
  | comp n t => exact ⟨h.1, h.2.1.trans huv, h.2.2⟩

theorem apart_snoc {S : List ℚ} {u : ℚ} (h : SpacedBy g S) (hu : ∀ a ∈ S, a + g ≤ u) : SpacedBy g (S ++ [u]) :=
  List.pairwise_append.2 ⟨h, List.pairwise_singleton _ _, fun a ha b hb => by rw [List.mem_singleton.1 hb]; exact hu a ha⟩

theorem spaced_next (hs : Slow rf g) {u : ℚ} {a : Act} {S F : List ℚ} {st st' : Stage} (hc : Cyclic a) (hS : SpacedBy g S) (hF : SpacedBy g F) (h : Spaced g u S F st) (hn : st.next rf u a = some st') (hu : OnGrid u) :
    SpacedBy g (S ++ if a.isSel then [u] else []) ∧ SpacedBy g (F ++ if a.isFired then [u] else []) ∧ Spaced g u (S ++ if a.isSel then [u] else []) (F ++ if a.isFired then [u] else []) st' := by
  have hg := hs.1
  cases st with
  | idle =>
    cases a <;> first | exact hc.elim | (simp [Stage.next, hc] at hn; done) | skip
    simp only [Stage.next] at hn
    split at hn
    · cases hn
      simp only [Act.isSel, Act.isFired, Bool.false_eq_true, if_false, List.append_nil]
      exact ⟨hS, hF, hu, le_rfl, h.1, h.2⟩
    · cases hn
  | conf t =>
    obtain ⟨h1, h2, h3, h4⟩ := h
    cases a <;> first | exact hc.elim | (simp [Stage.next, hc] at hn; done) | skip
    · simp only [Stage.next] at hn
      split at hn
      · rename_i he; cases hn; subst he
        simp only [Act.isSel, Act.isFired, Bool.false_eq_true, if_false, if_true, List.append_nil]
        exact ⟨apart_snoc hS h3, hF, h1, le_rfl, ⟨S, rfl, h3⟩, h4⟩
      · cases hn
    · simp only [Stage.next] at hn
      split at hn
      · rename_i he; cases hn; subst he
        simp only [Act.isSel, Act.isFired, Bool.false_eq_true, if_false, List.append_nil]
        exact ⟨hS, hF, h3, h4⟩
      · cases hn
  | sel nm t =>
    obtain ⟨h1, h2, ⟨S', rfl, h3⟩, h4⟩ := h
    have ht := hs.2 t h1
    have hup : ∀ u, u = round4 (t + rf) → (∀ a ∈ S' ++ [t], a + g ≤ u) ∧ ∀ b ∈ F, b + g ≤ u := fun u he => by
      subst he
      refine ⟨fun a ha => ?_, fun b hb => by linarith [h4 b hb]⟩
      rcases List.mem_append.1 ha with ha | ha
      · linarith [h3 a ha]
      · rw [List.mem_singleton.1 ha]; exact ht
    cases a <;> first | exact hc.elim | (simp [Stage.next, hc] at hn; done) | skip
    all_goals
      simp only [Stage.next] at hn
      split at hn
      · rename_i he; cases hn
        simp only [Act.isSel, Act.isFired, Bool.false_eq_true, if_false, if_true, List.append_nil]
        first
          | exact ⟨hS, hF, (hup u he.2).1, fun b hb => by linarith [(hup u he.2).2 b hb]⟩
          | exact ⟨hS, hF, h1, h2, ⟨S', rfl, h3⟩, h4⟩
          | refine ⟨hS, apart_snoc hF (hup u he.2).2, (hup u he.2).1, fun b hb => ?_⟩
            rcases List.mem_append.1 hb with hb | hb
            · linarith [(hup u he.2).2 b hb]
            · rw [List.mem_singleton.1 hb]
      · cases hn
  | comp nm t =>
    obtain ⟨h1, h2, ⟨S', rfl, h3⟩, h4⟩ := h
    have ht := hs.2 t h1
    have hup : ∀ u, u = round4 (t + rf) → (∀ a ∈ S' ++ [t], a + g ≤ u) ∧ ∀ b ∈ F, b + g ≤ u := fun u he => by
      subst he
      refine ⟨fun a ha => ?_, fun b hb => by linarith [h4 b hb]⟩
      rcases List.mem_append.1 ha with ha | ha
      · linarith [h3 a ha]
      · rw [List.mem_singleton.1 ha]; exact ht
    cases a <;> first | exact hc.elim | (simp [Stage.next, hc] at hn; done) | skip
    simp only [Stage.next] at hn
    split at hn
    · rename_i he; cases hn
      simp only [Act.isSel, Act.isFired, Bool.false_eq_true, if_false, if_true, List.append_nil]
      refine ⟨hS, apart_snoc hF (hup u he.2).2, (hup u he.2).1, fun b hb => ?_⟩
      rcases List.mem_append.1 hb with hb | hb
      · linarith [(hup u he.2).2 b hb]
      · rw [List.mem_singleton.1 hb]
    · cases hn

theorem spaced_reports (hs : Slow rf g) (l : List (ℚ × Act)) : (∀ a ∈ l, Cyclic a.2 ∧ OnGrid a.1) → l.Pairwise (fun a b => a.1 ≤ b.1) → ∀ st, stageOf rf l = some st →
    ∀ u, (∀ a ∈ l, a.1 ≤ u) → SpacedBy g (timesOf Act.isSel l) ∧ SpacedBy g (timesOf Act.isFired l) ∧ Spaced g u (timesOf Act.isSel l) (timesOf Act.isFired l) st := by
  induction l using List.reverseRecOn with
  | nil =>
    intro _ _ st h u _
    obtain rfl : Stage.idle = st := by simpa [stageOf] using h
    exact ⟨.nil, .nil, (fun _ h => by cases h), (fun _ h => by cases h)⟩
  | append_singleton l a ih =>
    intro ha hp st h u hlast
    rw [stageOf_append] at h
    obtain ⟨st0, h0, h1⟩ := Option.bind_eq_some_iff.1 h
    obtain ⟨hp1, -, hp2⟩ := List.pairwise_append.1 hp
    have haa := ha a (by simp)
    obtain ⟨i1, i2, i3⟩ := ih (fun b hb => ha b (List.mem_append.2 (.inl hb))) hp1 st0 h0 a.1 fun b hb => hp2 b hb a (by simp)
    obtain ⟨j1, j2, j3⟩ := spaced_next hs haa.1 i1 i2 i3 h1 haa.2
    rw [timesOf_snoc, timesOf_snoc]
    exact ⟨j1, j2, spaced_later j3 (hlast a (by simp))⟩

theorem timesOf_reports (f : Act → Bool) (hf : ∀ a, f a = true → Cyclic a) (l : List (ℚ × Ev)) (hl : ∀ x ∈ l, x.1 = x.2.time) :
    timesOf f (timedReports l) = l.filterMap (fun x => if f x.2.act then some x.1 else Option.none) := by
  unfold timesOf timedReports
  induction l with
  | nil => rfl
  | cons x l ih =>
    have ih := ih fun y hy => hl y (.tail _ hy)
    have hx := hl x (.head _)
    simp only [List.map_cons, List.filter_cons, List.filterMap_cons]
    by_cases hc : Cyclic x.2.act
    · simp only [hc, decide_true, if_true, List.filterMap_cons, ih, ← hx]
    · have : f x.2.act = false := by
        cases h : f x.2.act with
        | false => rfl
        | true => exact absurd (hf _ h) hc
      simp only [hc, decide_false, Bool.false_eq_true, if_false, this, ih]

theorem spaced_fine {s : Sim} (hs : Slow rf g) (h : Fine rf s) : SpacedBy g (selectionTimes s.trace) ∧ SpacedBy g (firingTimes s.trace) := by
  obtain ⟨hi, st, c, hr⟩ := h
  have hm : ∀ a ∈ timedReports s.trace, Cyclic a.2 ∧ ∃ x ∈ s.trace, a.1 = x.2.time := fun a ha => by
    obtain ⟨h1, h2⟩ := List.mem_filter.1 ha
    obtain ⟨x, hx, rfl⟩ := List.mem_map.1 h1
    exact ⟨by simpa using h2, x, hx, rfl⟩
  have hp : (timedReports s.trace).Pairwise (fun a b => a.1 ≤ b.1) := List.Pairwise.filter _ (List.pairwise_map.2 hi.order)
  obtain ⟨h1, h2, -⟩ := spaced_reports hs (timedReports s.trace) (fun a ha => by
    obtain ⟨hc, x, hx, he⟩ := hm a ha
    exact ⟨hc, he ▸ (hi.trace x hx).2.1⟩) hp st hr.stage s.now fun a ha => by
    obtain ⟨-, x, hx, he⟩ := hm a ha
    rw [he]; exact (hi.trace x hx).2.2
  rw [timesOf_reports _ (fun a h => by cases a <;> first | trivial | cases h) _ fun x hx => (hi.trace x hx).1] at h1 h2
  have e1 : selectionTimes s.trace = s.trace.filterMap (fun x => if Act.isSel x.2.act then some x.1 else Option.none) := by
    unfold selectionTimes
    congr 1; funext x; cases x.2.act <;> rfl
  have e2 : firingTimes s.trace = s.trace.filterMap (fun x => if Act.isFired x.2.act then some x.1 else Option.none) := by
    unfold firingTimes
    congr 1; funext x; cases x.2.act <;> rfl
  rw [e1, e2]
  exact ⟨h1, h2⟩

theorem length_firings (l : List (ℚ × Ev)) : (firingTimes l).length = l.countP (fun x => x.2.act.isFired) := by
  unfold firingTimes
  induction l with
  | nil => rfl
  | cons x l ih =>
    rw [List.filterMap_cons, List.countP_cons]
    cases x.2.act <;> simp [Act.isFired, ih]

theorem length_selections (l : List (ℚ × Ev)) : (selectionTimes l).length = l.countP (fun x => x.2.act.isSel) := by
  unfold selectionTimes
  induction l with
  | nil => rfl
  | cons x l ih =>
    rw [List.filterMap_cons, List.countP_cons]
    cases x.2.act <;> simp [Act.isSel, ih]

theorem apart_span {l : List ℚ} (hg : 0 ≤ g) {b : ℚ} : SpacedBy g l → ∀ a, a ≤ b → (∀ x ∈ l, a ≤ x ∧ x ≤ b) → (l.length : ℚ) * g ≤ b - a + g := by
  induction l with
  | nil => intro _ a hab _; simp; linarith
  | cons x l ih =>
    intro hp a hab hx
    obtain ⟨h1, h2⟩ := List.pairwise_cons.1 hp
    obtain ⟨hx1, hx2⟩ := hx x (.head _)
    cases l with
    | nil => simp; linarith
    | cons y l =>
      have hy := h1 y (.head _)
      have := ih h2 (x + g) (hy.trans (hx y (.tail _ (.head _))).2) fun z hz => ⟨h1 z hz, (hx z (.tail _ hz)).2⟩
      rw [List.length_cons]
      push_cast at this ⊢
      linarith

theorem apart_window {l : List ℚ} (hg : 0 ≤ g) (h : SpacedBy g l) {a b : ℚ} (hab : a ≤ b) : ((l.filter (fun x => a ≤ x ∧ x ≤ b)).length : ℚ) * g ≤ b - a + g :=
  apart_span hg (List.Pairwise.filter _ h) a hab fun x hx => by simpa using (List.mem_filter.1 hx).2

end Verif
