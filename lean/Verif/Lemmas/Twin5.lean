import Verif.Lemmas.Twin4
import Verif.Spec.Splitting
/-! # One call of `run` or two -/
namespace Verif
open Verif.Spec

variable {R : ℕ → ℕ → Prop} {E E' : Option Entry} {s s' : Sim} {C : Cfg}

theorem twin_alike (h : Twin R E E' s s') : LooksAlike s s' := ⟨h.now, h.w, h.trace⟩

/-- The same result of a call. -/
def Concur (x x' : Sim) (r : Except PyErr Unit) : Prop := LooksAlike x x' ∧ (r = .ok () → ∃ R, Twin R Option.none Option.none x x')

/-- What comes of a call of `run` that has begun. -/
def RunFrom (C : Cfg) (a x : Sim) (r : Except PyErr Unit) : Prop := (∃ y, r = .error y ∧ RunsOn C a x r) ∨ ∃ y, RunsOn C a y (.ok ()) ∧ compileAtEnd C y = (x, r)

theorem runCall_iff {t : ℚ} (h : s.now < t) {x : Sim} {r : Except PyErr Unit} : RunCall C s t x r ↔ RunFrom C (s.armed t) x r := by
  constructor
  · intro hr
    cases hr with
    | refused hs => rw [setStop_armed h] at hs; cases hs
    | failed hs hr => rw [setStop_armed h] at hs; cases hs; exact .inl ⟨_, rfl, hr⟩
    | ended hs hr hc => rw [setStop_armed h] at hs; cases hs; exact .inr ⟨_, hr, hc⟩
  · rintro (⟨y, rfl, hr⟩ | ⟨y, hr, hc⟩)
    · exact .failed (setStop_armed h) hr
    · exact .ended (setStop_armed h) hr hc

theorem runFrom_congr {u : Sim} (h : ∀ x r, RunsOn C u x r ↔ RunsOn C s x r) {x : Sim} {r : Except PyErr Unit} : RunFrom C u x r ↔ RunFrom C s x r := by
  unfold RunFrom; simp only [h]

theorem runsOn_of_stopped {u v x : Sim} {r : Except PyErr Unit} (h : u.step C = .stopped v) : RunsOn C u x r ↔ x = v ∧ r = .ok () := by
  constructor
  · intro hr
    cases hr with
    | stopped h' => rw [h] at h'; cases h'; exact ⟨rfl, rfl⟩
    | raised h' => rw [h] at h'; cases h'
    | more h' => rw [h] at h'; cases h'
  · rintro ⟨rfl, rfl⟩; exact .stopped h

theorem runsOn_of_raised {u v x : Sim} {y : PyErr} {r : Except PyErr Unit} (h : u.step C = .raised v y) : RunsOn C u x r ↔ x = v ∧ r = .error y := by
  constructor
  · intro hr
    cases hr with
    | stopped h' => rw [h] at h'; cases h'
    | raised h' => rw [h] at h'; cases h'; exact ⟨rfl, rfl⟩
    | more h' => rw [h] at h'; cases h'
  · rintro ⟨rfl, rfl⟩; exact .raised h

theorem runFrom_of_stopped {u v x : Sim} {r : Except PyErr Unit} (h : u.step C = .stopped v) : RunFrom C u x r ↔ compileAtEnd C v = (x, r) := by
  constructor
  · rintro (⟨y, rfl, hr⟩ | ⟨y, hr, hc⟩)
    · cases ((runsOn_of_stopped h).1 hr).2
    · rw [← ((runsOn_of_stopped h).1 hr).1]; exact hc
  · exact fun hc => .inr ⟨v, .stopped h, hc⟩

theorem runFrom_of_raised {u v x : Sim} {y : PyErr} {r : Except PyErr Unit} (h : u.step C = .raised v y) : RunFrom C u x r ↔ x = v ∧ r = .error y := by
  constructor
  · rintro (⟨y, rfl, hr⟩ | ⟨y, hr, hc⟩)
    · exact (runsOn_of_raised h).1 hr
    · cases ((runsOn_of_raised h).1 hr).2
  · rintro ⟨rfl, rfl⟩; exact .inl ⟨_, rfl, .raised h⟩

theorem runFrom_runsOn {a x : Sim} {r : Except PyErr Unit} : RunFrom C a x r → ∃ y r', RunsOn C a y r'
  | .inl ⟨_, _, h⟩ => ⟨_, _, h⟩
  | .inr ⟨_, h, _⟩ => ⟨_, _, h⟩

theorem agree_compile (h : Twin R Option.none Option.none s s') : (compileAtEnd C s).2 = (compileAtEnd C s').2 ∧ ∀ r, Concur (compileAtEnd C s).1 (compileAtEnd C s').1 r := by
  have hq : s.queue.isEmpty = s'.queue.isEmpty := by
    obtain ⟨Q, Q', h1, h2, h3, _⟩ := h.queue
    rw [h1, h2]
    show Q.isEmpty = Q'.isEmpty
    cases h3 <;> rfl
  have hw : ∀ w, Twin R Option.none Option.none { s with w := w } { s' with w := w } := fun w => by
    have := twin_data h w s.interruptibles s.started s.trace
    rw [show ({ s' with w := w } : Sim) = { s' with w := w, interruptibles := s.interruptibles, started := s.started, trace := s.trace } by rw [h.interruptibles, h.started, h.trace]]
    exact this
  unfold compileAtEnd
  rw [← hq, ← h.w]
  cases s.queue.isEmpty with
  | false => exact ⟨rfl, fun r => ⟨twin_alike h, fun _ => ⟨R, h⟩⟩⟩
  | true =>
    simp only [if_true]
    rcases compileIn C s.w with ⟨w, x | v⟩
    · exact ⟨rfl, fun r => ⟨twin_alike (hw w), fun _ => ⟨R, hw w⟩⟩⟩
    · exact ⟨rfl, fun r => ⟨twin_alike (hw w), fun _ => ⟨R, hw w⟩⟩⟩

/-- Two calls that end at the same time. -/
theorem agree_meets {e e' : Entry} (h : Meets C R e e' s s') (he : e.time = e'.time) :
    (∀ x r, RunFrom C s x r → ∃ x', RunFrom C s' x' r ∧ Concur x x' r) ∧ ∀ x' r, RunFrom C s' x' r → ∃ x, RunFrom C s x r ∧ Concur x x' r := by
  obtain ⟨u, u', hu, hl, hr, ha | ⟨v, v', y, hv, h1, h2⟩⟩ := h
  · obtain ⟨Q, Q', R', h1, h2, h3⟩ := twin_halted (C := C) hu ha he
    obtain ⟨k1, k2⟩ := agree_compile (C := C) h3
    constructor
    · intro x r hx
      have := (runFrom_of_stopped h1).1 ((runFrom_congr hl).2 hx)
      rw [this] at k1 k2
      exact ⟨_, (runFrom_congr hr).1 ((runFrom_of_stopped h2).2 (Prod.ext rfl k1.symm)), k2 r⟩
    · intro x r hx
      have := (runFrom_of_stopped h2).1 ((runFrom_congr hr).2 hx)
      rw [this] at k1 k2
      exact ⟨_, (runFrom_congr hl).1 ((runFrom_of_stopped h1).2 (Prod.ext rfl k1)), k2 r⟩
  · constructor
    · intro x r hx
      obtain ⟨rfl, rfl⟩ := (runFrom_of_raised h1).1 ((runFrom_congr hl).2 hx)
      exact ⟨v', (runFrom_congr hr).1 ((runFrom_of_raised h2).2 ⟨rfl, rfl⟩), twin_alike hv, fun hx => by cases hx⟩
    · intro x r hx
      obtain ⟨rfl, rfl⟩ := (runFrom_of_raised h2).1 ((runFrom_congr hr).2 hx)
      exact ⟨v, (runFrom_congr hl).1 ((runFrom_of_raised h1).2 ⟨rfl, rfl⟩), twin_alike hv, fun hx => by cases hx⟩

theorem agree_left {e e' : Entry} (h : Twin R (some e) (some e') s s') (he : e.time = e'.time) {x : Sim} {r : Except PyErr Unit} (hx : RunFrom C s x r) : ∃ x', RunFrom C s' x' r ∧ Concur x x' r := by
  obtain ⟨y, r', hr⟩ := runFrom_runsOn hx
  exact (agree_meets (meets_left hr h he.ge) he).1 x r hx

theorem agree_right {e e' : Entry} (h : Twin R (some e) (some e') s s') (he : e.time = e'.time) {x : Sim} {r : Except PyErr Unit} (hx : RunFrom C s' x r) : ∃ x', RunFrom C s x' r ∧ Concur x' x r := by
  obtain ⟨y, r', hr⟩ := runFrom_runsOn hx
  exact (agree_meets (meets_right hr h he.ge) he).2 x r hx

/-- A call that succeeds ends on time. -/
theorem call_now (h : Twin R Option.none Option.none s s) {t : ℚ} {x : Sim} (hx : RunCall C s t x (.ok ())) : s.now < t ∧ x.now = t := by
  by_cases ht : s.now < t
  · obtain ⟨R', h'⟩ := twin_armed h ht ht
    have hf := (runCall_iff ht).1 hx
    obtain ⟨y, r', hr⟩ := runFrom_runsOn hf
    obtain ⟨u, u', hu, hl, -, ha | ⟨v, v', y, -, h1, -⟩⟩ := meets_left hr h' le_rfl
    · obtain ⟨Q, Q', R', h1, -, -⟩ := twin_halted (C := C) hu ha rfl
      have hc := (runFrom_of_stopped h1).1 ((runFrom_congr hl).2 hf)
      refine ⟨ht, ?_⟩
      have : (compileAtEnd C (u.halted ⟨t, true, s.next⟩ Q)).1.now = t := by
        unfold compileAtEnd
        cases (u.halted ⟨t, true, s.next⟩ Q).queue.isEmpty with
        | false => rfl
        | true =>
          simp only [if_true]
          rcases compileIn C (u.halted ⟨t, true, s.next⟩ Q).w with ⟨w, x | v⟩ <;> rfl
      rwa [hc] at this
    · cases ((runFrom_of_raised h1).1 ((runFrom_congr hl).2 hf)).2
  · have hs : s.setStop t = (s, .error .value) := if_pos (not_lt.1 ht)
    cases hx with
    | ended h1 _ _ => rw [hs] at h1; cases h1

/-- The same call in both. -/
theorem agree_call (h : Twin R Option.none Option.none s s') {t : ℚ} {x : Sim} {r : Except PyErr Unit} (hx : RunCall C s t x r) : ∃ x', RunCall C s' t x' r ∧ Concur x x' r := by
  by_cases ht : s.now < t
  · obtain ⟨R', h'⟩ := twin_armed h ht ht
    obtain ⟨x', h1, h2⟩ := agree_left h' rfl ((runCall_iff ht).1 hx)
    exact ⟨x', (runCall_iff (by rw [← h.now]; exact ht)).2 h1, h2⟩
  · have hs : s.setStop t = (s, .error .value) := if_pos (not_lt.1 ht)
    have hs' : s'.setStop t = (s', .error .value) := if_pos (by rw [← h.now]; exact not_lt.1 ht)
    cases hx with
    | refused h1 => rw [hs] at h1; cases h1; exact ⟨s', .refused hs', twin_alike h, fun hx => by cases hx⟩
    | failed h1 _ => rw [hs] at h1; cases h1
    | ended h1 _ _ => rw [hs] at h1; cases h1

theorem agree_call_right (h : Twin R Option.none Option.none s s') {t : ℚ} {x : Sim} {r : Except PyErr Unit} (hx : RunCall C s' t x r) : ∃ x', RunCall C s t x' r ∧ Concur x' x r := by
  by_cases ht : s.now < t
  · obtain ⟨R', h'⟩ := twin_armed h ht ht
    obtain ⟨x', h1, h2⟩ := agree_right h' rfl ((runCall_iff (by rw [← h.now]; exact ht)).1 hx)
    exact ⟨x', (runCall_iff ht).2 h1, h2⟩
  · have hs : s.setStop t = (s, .error .value) := if_pos (not_lt.1 ht)
    have hs' : s'.setStop t = (s', .error .value) := if_pos (by rw [← h.now]; exact not_lt.1 ht)
    cases hx with
    | refused h1 => rw [hs'] at h1; cases h1; exact ⟨s, .refused hs, twin_alike h, fun hx => by cases hx⟩
    | failed h1 _ => rw [hs'] at h1; cases h1
    | ended h1 _ _ => rw [hs'] at h1; cases h1

theorem agree_runAll_right {ts : List ℚ} {x : Sim} (hx : RunAll C s' ts x) : ∀ {R : ℕ → ℕ → Prop} {s : Sim}, Twin R Option.none Option.none s s' → ∃ x' R', RunAll C s ts x' ∧ Twin R' Option.none Option.none x' x := by
  induction hx with
  | none s' => exact fun {R s} h => ⟨s, R, .none s, h⟩
  | more h1 h2 ih =>
    intro R s h
    obtain ⟨x', k1, _, k2⟩ := agree_call_right h h1
    obtain ⟨R', k2⟩ := k2 rfl
    obtain ⟨y, R'', k3, k4⟩ := ih k2
    exact ⟨y, R'', .more k1 k3, k4⟩

theorem agree_runAll {ts : List ℚ} {x : Sim} (hx : RunAll C s ts x) : ∀ {R : ℕ → ℕ → Prop} {s' : Sim}, Twin R Option.none Option.none s s' → ∃ x' R', RunAll C s' ts x' ∧ Twin R' Option.none Option.none x x' := by
  induction hx with
  | none s => exact fun {R s'} h => ⟨s', R, .none s', h⟩
  | more h1 h2 ih =>
    intro R s' h
    obtain ⟨x', k1, _, k2⟩ := agree_call h h1
    obtain ⟨R', k2⟩ := k2 rfl
    obtain ⟨y, R'', k3, k4⟩ := ih k2
    exact ⟨y, R'', .more k1 k3, k4⟩

/-! ## Splitting -/

theorem compileAtEnd_idle (h : C.compilation = true → s.queue ≠ []) : compileAtEnd C s = (s, .ok ()) := by
  unfold compileAtEnd
  by_cases hc : C.compilation = true
  · have : s.queue.isEmpty = false := by
      cases hq : s.queue with
      | nil => exact absurd hq (h hc)
      | cons _ _ => rfl
    rw [this]; rfl
  · have : compileIn C s.w = (s.w, .ok Option.none) := by
      unfold compileIn
      rw [Bool.not_eq_true] at hc
      rw [hc]
    rw [this]
    cases s.queue.isEmpty <;> rfl

theorem compileAtEnd_queue : (compileAtEnd C s).1.queue = s.queue := by
  unfold compileAtEnd
  cases s.queue.isEmpty with
  | false => rfl
  | true =>
    simp only [if_true]
    rcases compileIn C s.w with ⟨w, x | v⟩ <;> rfl

/-- One call of `run`, and two: what they have in common. -/
theorem split_meets {e e' : Entry} (hm : Meets C R e e' s s') (he : e'.time < e.time) (hq : C.compilation = true → ∀ x r, RunFrom C s' x r → x.queue ≠ []) :
    (∃ v v' y, LooksAlike v v' ∧ (∀ x r, RunFrom C s x r ↔ x = v ∧ r = .error y) ∧ ∀ x r, RunFrom C s' x r ↔ x = v' ∧ r = .error y) ∨
    ∃ R' a v e2, v.now = e'.time ∧ e2.time = e.time ∧ (∀ x r, RunFrom C s x r ↔ RunFrom C a x r) ∧ (∀ x r, RunFrom C s' x r ↔ x = v ∧ r = .ok ()) ∧ Twin R' (some e) (some e2) a (v.armed e.time) := by
  obtain ⟨u, u', hu, hl, hr, ha | ⟨v, v', y, hv, h1, h2⟩⟩ := hm
  · obtain ⟨Q', R', h1, h2, h3⟩ := twin_again (C := C) hu ha he
    have hf : ∀ x r, RunFrom C s' x r ↔ compileAtEnd C (u'.halted e' Q') = (x, r) := fun x r => (runFrom_congr hr).symm.trans (runFrom_of_stopped h1)
    have hc : compileAtEnd C (u'.halted e' Q') = (u'.halted e' Q', .ok ()) := by
      refine compileAtEnd_idle fun hc => ?_
      rw [← compileAtEnd_queue (C := C)]
      exact hq hc _ _ ((hf _ _).2 rfl)
    refine .inr ⟨R', { u with now := e'.time }, u'.halted e' Q', ⟨e.time, true, u'.next⟩, h2, rfl, fun x r => (runFrom_congr fun x r => ((runsOn_congr (step_now e'.time)).trans (hl x r))).symm, fun x r => (hf x r).trans ?_, h3⟩
    rw [hc]
    exact ⟨fun h => by cases h; exact ⟨rfl, rfl⟩, fun h => by rw [h.1, h.2]⟩
  · exact .inl ⟨v, v', y, twin_alike hv, fun x r => (runFrom_congr hl).symm.trans (runFrom_of_raised h1), fun x r => (runFrom_congr hr).symm.trans (runFrom_of_raised h2)⟩

theorem split_both (h : Twin R Option.none Option.none s s) {t1 t2 : ℚ} (h1 : s.now < t1) (h2 : t1 < t2) (hq : C.compilation = true → ∀ x r, RunCall C s t1 x r → x.queue ≠ [])
    (hm : ∀ R e e', Twin R (some e) (some e') (s.armed t2) (s.armed t1) → e'.time ≤ e.time → Meets C R e e' (s.armed t2) (s.armed t1)) :
    (∀ x r, RunCall C s t2 x r → ∃ x', RunTwice C s t1 t2 x' r ∧ Concur x x' r) ∧ ∀ x' r, RunTwice C s t1 t2 x' r → ∃ x, RunCall C s t2 x r ∧ Concur x x' r := by
  obtain ⟨R', ha⟩ := twin_armed h (h1.trans h2) h1
  have hi1 := fun x r => runCall_iff (C := C) h1 (x := x) (r := r)
  have hi2 := fun x r => runCall_iff (C := C) (h1.trans h2) (x := x) (r := r)
  rcases split_meets (hm _ _ _ ha h2.le) h2 (fun hc x r hx => hq hc x r ((hi1 x r).2 hx)) with ⟨v, v', y, k1, k2, k3⟩ | ⟨R'', a, v, e2, k0, k0', k1, k2, k3⟩
  · constructor
    · intro x r hx
      obtain ⟨rfl, rfl⟩ := (k2 x r).1 ((hi2 x r).1 hx)
      exact ⟨v', .failed ((hi1 _ _).2 ((k3 _ _).2 ⟨rfl, rfl⟩)), k1, fun hx => by cases hx⟩
    · intro x r hx
      cases hx with
      | failed hx =>
        obtain ⟨rfl, hr⟩ := (k3 _ _).1 ((hi1 _ _).1 hx)
        exact ⟨v, (hi2 _ _).2 ((k2 _ _).2 ⟨rfl, hr⟩), k1, fun hx => by cases hx⟩
      | both hx _ => cases ((k3 _ _).1 ((hi1 _ _).1 hx)).2
  · have hv : v.now < t2 := by rw [k0]; exact h2
    constructor
    · intro x r hx
      obtain ⟨x', g1, g2⟩ := agree_left k3 k0'.symm ((k1 x r).1 ((hi2 x r).1 hx))
      exact ⟨x', .both ((hi1 _ _).2 ((k2 _ _).2 ⟨rfl, rfl⟩)) ((runCall_iff hv).2 g1), g2⟩
    · intro x r hx
      cases hx with
      | failed hx => cases ((k2 _ _).1 ((hi1 _ _).1 hx)).2
      | both hx hx' =>
        obtain ⟨rfl, -⟩ := (k2 _ _).1 ((hi1 _ _).1 hx)
        obtain ⟨x', g1, g2⟩ := agree_right k3 k0'.symm ((runCall_iff hv).1 hx')
        exact ⟨x', (hi2 _ _).2 ((k1 _ _).2 g1), g2⟩

theorem split_left (h : Twin R Option.none Option.none s s) {t1 t2 : ℚ} (h1 : s.now < t1) (h2 : t1 < t2) (hq : C.compilation = true → ∀ x r, RunCall C s t1 x r → x.queue ≠ [])
    {x : Sim} {r : Except PyErr Unit} (hx : RunCall C s t2 x r) : ∃ x', RunTwice C s t1 t2 x' r ∧ Concur x x' r := by
  obtain ⟨y, r', hr⟩ := runFrom_runsOn ((runCall_iff (h1.trans h2)).1 hx)
  exact (split_both h h1 h2 hq fun R e e' ha he => meets_left hr ha he).1 x r hx

theorem split_right (h : Twin R Option.none Option.none s s) {t1 t2 : ℚ} (h1 : s.now < t1) (h2 : t1 < t2) (hq : C.compilation = true → ∀ x r, RunCall C s t1 x r → x.queue ≠ [])
    {x : Sim} {r : Except PyErr Unit} (hx : RunTwice C s t1 t2 x r) : ∃ x', RunCall C s t2 x' r ∧ Concur x' x r := by
  have : ∃ y r', RunsOn C (s.armed t1) y r' := by
    cases hx with
    | failed hx => exact runFrom_runsOn ((runCall_iff h1).1 hx)
    | both hx _ => exact runFrom_runsOn ((runCall_iff h1).1 hx)
  obtain ⟨y, r', hr⟩ := this
  exact (split_both h h1 h2 hq fun R e e' ha he => meets_right hr ha he).2 x r hx

/-! ## Stepping -/

/-- A step, and then a call of `run`, or the call alone. -/
theorem twin_stepped (h : Twin R Option.none Option.none s s) {s1 : Sim} (hs : s.step C = .ok s1) {t : ℚ} {en : Entry} {l : List Entry} (hl : s.queue = en :: l) (ht : en.time < t) (ht1 : s1.now < t) :
    ∃ R' e e' u, (s.armed t).step C = .ok u ∧ e.time = e'.time ∧ Twin R' (some e) (some e') u (s1.armed t) := by
  have hT : Twin (Carried R s s (s.next + 1) s.next) (some ⟨t, true, s.next⟩) Option.none (s.armed t) s := by
    rw [armed_eq]
    refine twin_carried (q' := s.queue) (ev' := s.events) (n := s.now) h (Nat.le_succ _) le_rfl (fun a b hc => ⟨fset_other _ _ (Nat.ne_of_lt hc.2.1), rfl⟩) (fun i hi => ?_) (fun i hi => (h.fresh i hi).1) ?_ (fun e he => ?_) (fun e he => by cases he) (fun e he => ?_) (fun e he => by cases he)
    · exact (fset_other _ _ (Nat.ne_of_gt hi)).trans (h.fresh i (Nat.le_of_lt hi)).1
    · obtain ⟨Q, Q', h1, h2, h3⟩ := h.queue
      exact ⟨Q, Q', by rw [h1]; rfl, h2, h3⟩
    · cases he
      obtain ⟨Q, Q', h1, h2, h3, h4, h5, h6⟩ := h.queue
      exact ⟨rfl, (h5 en (by rw [show Q = s.queue from h1.symm, hl]; exact .head _)).trans_lt ht⟩
    · cases he; exact ⟨fset_same _ _ _, fun b hb => absurd hb.2.1 (lt_irrefl _), Nat.lt_succ_self _⟩
  obtain ⟨Q, Q', h1, h2, h3, h4, h5, h6⟩ := hT.queue
  have e2 : Q' = en :: l := h2.symm.trans hl
  subst e2
  cases h3 with
  | @cons x x' Q Q' hx hr =>
    have hxt : x.time < t := by rw [hx.time]; exact ht
    have hh : (s.armed t).queue = x :: withEntry (some ⟨t, true, s.next⟩) Q := by
      rw [h1]; show insertEntry _ (x :: Q) = x :: insertEntry _ Q
      rw [insertEntry, if_pos (before_iff.2 (.inl hxt))]
    obtain ⟨u, u', k1, ⟨k2, k3⟩ | ⟨y, _, k3⟩⟩ := twin_pop (C := C) hT hh hl (.cons hx hr) h4 (h5 x (.head _)) (fun en hen => h6 en (.tail _ hen)) (fun e he => by cases he; exact hxt) (fun e he => by cases he)
    · rw [hs] at k3; cases k3
      obtain ⟨g1, g2, g3⟩ := k1.stop _ rfl
      refine ⟨Carried (Carried R s s (s.next + 1) s.next) u s1 u.next (s1.next + 1), ⟨t, true, s.next⟩, ⟨t, true, s1.next⟩, u, k2, rfl, ?_⟩
      have ht2 : u.now < t := by rw [k1.now]; exact ht1
      rw [armed_eq, ← k1.now]
      refine twin_carried (n := u.now) (q := u.queue) (ev := u.events) (m := u.next) k1 le_rfl (Nat.le_succ _) (fun a b hc => ⟨rfl, fset_other _ _ (Nat.ne_of_lt hc.2.2)⟩) (fun i hi => (k1.fresh i hi).1) (fun i hi => ?_) ?_ (fun e he => ?_) (fun e he => ?_) (fun e he => ?_) (fun e he => ?_)
      · exact (fset_other _ _ (Nat.ne_of_gt hi)).trans (k1.fresh' i (Nat.le_of_lt hi)).1
      · obtain ⟨Q, Q', h1, h2, h3, h4, h5, h6⟩ := k1.queue
        exact ⟨Q, Q', h1, by rw [h2]; rfl, h3, h4, h5, h6⟩
      · cases he; exact ⟨rfl, ht2⟩
      · cases he; exact ⟨rfl, ht2⟩
      · cases he; exact ⟨g1, fun b hb => g2 b hb.1, g3⟩
      · cases he; exact ⟨fset_same _ _ _, fun b hb => absurd hb.2.2 (lt_irrefl _), Nat.lt_succ_self _⟩
    · rw [hs] at k3; cases k3

/-! ## The beginning -/

theorem both_initExtra : ∀ (l : List String) {s s' : Sim}, Twin R E E' s s' → Both R E E' s s' (initExtra l s) (initExtra l s') SameRes
  | [], _, _, h => both_pure h rfl
  | n :: r, s, s', h => by
    unfold initExtra
    by_cases hn : n = procName
    · rw [if_pos hn]
      exact both_initExtra r h
    · rw [if_neg hn]
      refine both_bind (both_process h (.other (fun _ _ => by simp) (fun _ _ => by simp))) fun s1 s1' p q h1 _ _ hp => both_bind (both_newEvent h1) fun s2 s2' a b h2 n2 n2' ha => ?_
      refine both_bind (P := SameRes) (both_set ?_ le_rfl le_rfl rfl) fun s3 s3' _ _ h3 _ _ _ => both_initExtra r h3
      exact ⟨h2.one, h2.now, h2.w, h2.interruptibles, h2.started, h2.envArgs, h2.trace, h2.grow, h2.events, h2.points, h2.target, List.rel_append h2.activate (.cons ⟨rfl, ha⟩ .nil),
        List.rel_append h2.extra (.cons ⟨rfl, hp.mono n2 n2'⟩ .nil), h2.procActivate, h2.envActivate, h2.queue, h2.gap, h2.gap', h2.stop, h2.stop', h2.fresh, h2.fresh'⟩

theorem twin_blank (w : Mach) (args : Option EnvArgs) (t : ℚ) : Twin Eq Option.none Option.none (Sim.blank w args t) (Sim.blank w args t) := by
  have hc : ∀ {a : ℕ}, a < 2 → Corr Eq (Sim.blank w args t) (Sim.blank w args t) a a := fun h => ⟨rfl, h, h⟩
  have hf : ∀ i, 2 ≤ i → (Sim.blank w args t).events i = ⟨Option.none, false, Option.none⟩ := fun i hi => by
    show (⟨Option.none, false, if i < 2 then some [] else Option.none⟩ : SEv) = _
    rw [if_neg (not_lt.2 hi)]
  refine ⟨⟨fun h1 h2 => h1 ▸ h2 ▸ rfl, fun h1 h2 => h1.trans h2.symm⟩, rfl, rfl, rfl, rfl, rfl, rfl, fun i => rfl, ?_, ?_, ?_, .nil, .nil, hc (a := 0) (by decide), hc (a := 1) (by decide), ⟨[], [], rfl, rfl, .nil, .nil, (fun _ h => by cases h), (fun _ h => by cases h)⟩,
    (fun _ h => by cases h), (fun _ h => by cases h), (fun _ h => by cases h), (fun _ h => by cases h), fun i hi => ⟨hf i hi, rfl, rfl⟩, fun i hi => ⟨hf i hi, rfl, rfl⟩⟩
  · rintro a _ rfl
    refine ⟨rfl, rfl, ?_⟩
    show Option.Rel _ (if a < 2 then some [] else Option.none) (if a < 2 then some [] else Option.none)
    split
    · exact .some .nil
    · exact .none
  · rintro a _ rfl; exact .none
  · rintro a _ rfl; exact hc (a := 0) (by decide)

theorem twin_init (w : Mach) (args : Option EnvArgs) (t : ℚ) : Twin Eq Option.none Option.none (Sim.init w args t) (Sim.init w args t) := by
  refine (both_bind (Q := SameRes) (both_process (twin_blank w args t) (.other (fun _ _ => by simp) (fun _ _ => by simp))) fun s1 s1' _ _ h1 _ _ _ => both_bind (both_initExtra _ h1) fun s2 s2' _ _ h2 _ _ _ => ?_).twin
  by_cases hn : w.env.isSome = true
  · rw [if_pos hn]
    exact both_bind (both_process h2 (.other (fun _ _ => by simp) (fun _ _ => by simp))) fun s3 s3' _ _ h3 _ _ _ => both_pure h3 rfl
  · rw [if_neg hn]
    exact both_pure h2 rfl

end Verif
