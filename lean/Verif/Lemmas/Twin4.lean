import Verif.Lemmas.Twin3
/-! # Calls of `run` in simulations that are alike -/
namespace Verif

variable {R : ℕ → ℕ → Prop} {E E' F F' : Option Entry} {s s' : Sim} {C : Cfg}

/-- What corresponded before, and what is to come. -/
def Carried (R : ℕ → ℕ → Prop) (s s' : Sim) (m m' a b : ℕ) : Prop := Corr R s s' a b ∨ ∃ i, a = m + i ∧ b = m' + i

theorem carried_corr {u u' : Sim} (hm : s.next ≤ u.next) (hm' : s'.next ≤ u'.next) (a b : ℕ) (h : Corr R s s' a b) : Corr (Carried R s s' u.next u'.next) u u' a b := ⟨.inl h, h.2.1.trans_le hm, h.2.2.trans_le hm'⟩

theorem twin_carried (h : Twin R E E' s s') {m m' : ℕ} {n : ℚ} {q q' : List Entry} {ev ev' : ℕ → SEv} (hm : s.next ≤ m) (hm' : s'.next ≤ m')
    (hev : ∀ a b, Corr R s s' a b → ev a = s.events a ∧ ev' b = s'.events b) (hf : ∀ i, m ≤ i → ev i = ⟨Option.none, false, Option.none⟩) (hf' : ∀ i, m' ≤ i → ev' i = ⟨Option.none, false, Option.none⟩)
    (hq : ∃ Q Q', q = withEntry F Q ∧ q' = withEntry F' Q' ∧ List.Forall₂ (EnTwin (Corr R s s')) Q Q' ∧ Q.Pairwise Entry.upTo ∧ (∀ en ∈ Q, n ≤ en.time) ∧ ∀ en ∈ Q, en.urgent = true → en.time ≤ n)
    (hg : ∀ e, F = some e → e.urgent = true ∧ n < e.time) (hg' : ∀ e, F' = some e → e.urgent = true ∧ n < e.time)
    (hs : ∀ e, F = some e → ev e.ev = ⟨some (.ok .nothing), false, some [.stop]⟩ ∧ (∀ b, ¬ Corr R s s' e.ev b) ∧ e.ev < m)
    (hs' : ∀ e, F' = some e → ev' e.ev = ⟨some (.ok .nothing), false, some [.stop]⟩ ∧ (∀ a, ¬ Corr R s s' a e.ev) ∧ e.ev < m') :
    Twin (Carried R s s' m m') F F' { s with now := n, queue := q, events := ev, next := m } { s' with now := n, queue := q', events := ev', next := m' } := by
  have hc := carried_corr (R := R) (s := s) (s' := s') (u := { s with now := n, queue := q, events := ev, next := m }) (u' := { s' with now := n, queue := q', events := ev', next := m' }) hm hm'
  have hpt : ∀ {o o' : Option Pt}, Option.Rel (PtTwin (Corr R s s')) o o' → Option.Rel (PtTwin (Corr (Carried R s s' m m') { s with now := n, queue := q, events := ev, next := m } { s' with now := n, queue := q', events := ev', next := m' })) o o' := by
    intro o o' h1
    cases h1 with
    | none => exact .none
    | some h1 => exact .some (h1.mono hc)
  refine ⟨⟨?_, ?_⟩, rfl, h.w, h.interruptibles, h.started, h.envArgs, h.trace, fun i => .inr ⟨i, rfl, rfl⟩, ?_, ?_, ?_, h.activate.imp fun _ _ hx => ⟨hx.1, hc _ _ hx.2⟩, h.extra.imp fun _ _ hx => ⟨hx.1, hc _ _ hx.2⟩,
    hc _ _ h.procActivate, hc _ _ h.envActivate, ?_, hg, hg', fun e he => ?_, fun e he => ?_, fun i hi => ⟨hf i hi, (h.fresh i (hm.trans hi)).2⟩, fun i hi => ⟨hf' i hi, (h.fresh' i (hm'.trans hi)).2⟩⟩
  · rintro a b b' (h1 | ⟨i, rfl, rfl⟩) (h2 | ⟨j, h2, rfl⟩)
    · exact h.one.left h1.1 h2.1
    · have := h1.2.1; omega
    · have := h2.2.1; omega
    · omega
  · rintro a a' b (h1 | ⟨i, rfl, rfl⟩) (h2 | ⟨j, rfl, h2⟩)
    · exact h.one.right h1.1 h2.1
    · have := h1.2.2; omega
    · have := h2.2.2; omega
    · omega
  · rintro a b (h1 | ⟨i, rfl, rfl⟩)
    · show EvTwin _ (ev a) (ev' b)
      rw [(hev a b h1).1, (hev a b h1).2]
      exact (h.events a b h1.1).mono hc
    · show EvTwin _ (ev (m + i)) (ev' (m' + i))
      rw [hf _ (Nat.le_add_right _ _), hf' _ (Nat.le_add_right _ _)]
      exact ⟨rfl, rfl, .none⟩
  · rintro a b (h1 | ⟨i, rfl, rfl⟩)
    · exact hpt (h.points a b h1.1)
    · show Option.Rel _ (s.points (m + i)) (s'.points (m' + i))
      rw [(h.fresh _ (hm.trans (Nat.le_add_right _ _))).2.1, (h.fresh' _ (hm'.trans (Nat.le_add_right _ _))).2.1]
      exact .none
  · rintro a b (h1 | ⟨i, rfl, rfl⟩)
    · exact hc _ _ (h.target a b h1.1)
    · have h0 := h.target _ _ (h.grow 0)
      rw [(h.fresh _ (Nat.le_add_right _ _)).2.2, (h.fresh' _ (Nat.le_add_right _ _)).2.2] at h0
      show Corr _ _ _ (s.target (m + i)) (s'.target (m' + i))
      rw [(h.fresh _ (hm.trans (Nat.le_add_right _ _))).2.2, (h.fresh' _ (hm'.trans (Nat.le_add_right _ _))).2.2]
      exact hc _ _ h0
  · obtain ⟨Q, Q', h1, h2, h3, h4⟩ := hq
    exact ⟨Q, Q', h1, h2, h3.imp fun _ _ hx => hx.mono hc, h4⟩
  · obtain ⟨h1, h2, h3⟩ := hs e he
    refine ⟨h1, ?_, h3⟩
    rintro b (hb | ⟨i, hi, rfl⟩)
    · exact h2 b hb
    · omega
  · obtain ⟨h1, h2, h3⟩ := hs' e he
    refine ⟨h1, ?_, h3⟩
    rintro b (hb | ⟨i, rfl, hi⟩)
    · exact h2 b hb
    · omega

/-- The state in which the steps of `run` begin. -/
def Sim.armed (s : Sim) (t : ℚ) : Sim := (s.alloc ⟨some (.ok .nothing), false, some [.stop]⟩).schedule s.next true (t - s.now)

theorem setStop_armed {t : ℚ} (h : s.now < t) : s.setStop t = (s.armed t, .ok ()) := if_neg (not_le.2 h)

theorem armed_queue (t : ℚ) : (s.armed t).queue = insertEntry ⟨t, true, s.next⟩ s.queue := by
  show insertEntry ⟨s.now + (t - s.now), true, s.next⟩ s.queue = _
  rw [add_sub_cancel]

theorem armed_eq (t : ℚ) : s.armed t = { s with now := s.now, queue := insertEntry ⟨t, true, s.next⟩ s.queue, events := fset s.events s.next ⟨some (.ok .nothing), false, some [.stop]⟩, next := s.next + 1 } := by
  show Sim.schedule _ _ _ _ = _
  simp only [Sim.schedule, Sim.alloc, add_sub_cancel]

/-- Two calls of `run` begin. -/
theorem twin_armed (h : Twin R Option.none Option.none s s') {t t' : ℚ} (ht : s.now < t) (ht' : s.now < t') :
    ∃ R', Twin R' (some ⟨t, true, s.next⟩) (some ⟨t', true, s'.next⟩) (s.armed t) (s'.armed t') := by
  refine ⟨Carried R s s' (s.next + 1) (s'.next + 1), ?_⟩
  rw [armed_eq, armed_eq, ← h.now]
  refine twin_carried h (Nat.le_succ _) (Nat.le_succ _) (fun a b hc => ⟨fset_other _ _ (Nat.ne_of_lt hc.2.1), fset_other _ _ (Nat.ne_of_lt hc.2.2)⟩) (fun i hi => ?_) (fun i hi => ?_) ?_ (fun e he => ?_) (fun e he => ?_) (fun e he => ?_) (fun e he => ?_)
  · exact (fset_other _ _ (Nat.ne_of_gt hi)).trans (h.fresh i (Nat.le_of_lt hi)).1
  · exact (fset_other _ _ (Nat.ne_of_gt hi)).trans (h.fresh' i (Nat.le_of_lt hi)).1
  · obtain ⟨Q, Q', h1, h2, h3⟩ := h.queue
    exact ⟨Q, Q', by rw [h1]; rfl, by rw [h2]; rfl, h3⟩
  · cases he; exact ⟨rfl, ht⟩
  · cases he; exact ⟨rfl, ht'⟩
  · cases he; exact ⟨fset_same _ _ _, fun b hb => absurd hb.2.1 (lt_irrefl _), Nat.lt_succ_self _⟩
  · cases he; exact ⟨fset_same _ _ _, fun b hb => absurd hb.2.2 (lt_irrefl _), Nat.lt_succ_self _⟩

/-- The state after `run` has been stopped. -/
def Sim.halted (s : Sim) (e : Entry) (Q : List Entry) : Sim := { s with now := e.time, queue := Q, events := fset s.events e.ev { s.events e.ev with callbacks := Option.none } }

theorem step_halted {e : Entry} {Q : List Entry} (h : s.events e.ev = ⟨some (.ok .nothing), false, some [.stop]⟩) (hq : s.queue = e :: Q) : s.step C = .stopped (s.halted e Q) := by
  unfold Sim.step
  rw [hq]
  dsimp only
  rw [h]
  dsimp only
  rw [if_pos (by rfl), Sim.halted, h]

theorem insertEntry_first {e : Entry} (hu : e.urgent = true) : ∀ {Q : List Entry}, (∀ en ∈ Q, e.time ≤ en.time) → (∀ en ∈ Q, en.urgent = false) → insertEntry e Q = e :: Q
  | [], _, _ => rfl
  | x :: r, h1, h2 => by
    rw [insertEntry, if_neg]
    intro hn
    rcases before_iff.1 hn with hn | ⟨_, hn | hn⟩
    · exact absurd (h1 x (.head _)) (not_le.2 hn)
    · rw [h2 x (.head _)] at hn; cases hn
    · rw [hu] at hn; cases hn

/-- Both calls are stopped at the same time. -/
theorem twin_halted {e e' : Entry} (h : Twin R (some e) (some e') s s') (hs : AtStop R e e' s s') (he : e.time = e'.time) :
    ∃ Q Q' R', s.step C = .stopped (s.halted e Q) ∧ s'.step C = .stopped (s'.halted e' Q') ∧ Twin R' Option.none Option.none (s.halted e Q) (s'.halted e' Q') := by
  obtain ⟨Q, Q', h1, h2, h3, h4, h5, h6⟩ := hs
  obtain ⟨g1, g2, g3⟩ := h.stop e rfl
  obtain ⟨g1', g2', g3'⟩ := h.stop' e' rfl
  have hq : s.queue = e :: Q := by rw [h1]; exact insertEntry_first (h.gap e rfl).1 (by rw [he]; exact h5) h6
  refine ⟨Q, Q', Carried R s s' s.next s'.next, step_halted g1 hq, step_halted g1' h2, ?_⟩
  unfold Sim.halted
  rw [he]
  refine twin_carried h le_rfl le_rfl (fun a b hc => ⟨fset_other _ _ (fun hx => ?_), fset_other _ _ (fun hx => ?_)⟩) (fun i hi => ?_) (fun i hi => ?_) ?_ (fun e he => by cases he) (fun e he => by cases he) (fun e he => by cases he) (fun e he => by cases he)
  · subst hx; exact g2 _ hc.1
  · subst hx; exact g2' _ hc.1
  · exact (fset_other _ _ (Nat.ne_of_gt (g3.trans_le hi))).trans (h.fresh i hi).1
  · exact (fset_other _ _ (Nat.ne_of_gt (g3'.trans_le hi))).trans (h.fresh' i hi).1
  · exact ⟨Q, Q', rfl, rfl, h3, h4, h5, fun en hen hu => by rw [h6 en hen] at hu; cases hu⟩

/-- The first call is stopped, and one more begins. -/
theorem twin_again {e e' : Entry} (h : Twin R (some e) (some e') s s') (hs : AtStop R e e' s s') (he : e'.time < e.time) :
    ∃ Q' R', s'.step C = .stopped (s'.halted e' Q') ∧ (s'.halted e' Q').now = e'.time ∧
      Twin R' (some e) (some ⟨e.time, true, s'.next⟩) { s with now := e'.time } ((s'.halted e' Q').armed e.time) := by
  obtain ⟨Q, Q', h1, h2, h3, h4, h5, h6⟩ := hs
  obtain ⟨g1, g2, g3⟩ := h.stop e rfl
  obtain ⟨g1', g2', g3'⟩ := h.stop' e' rfl
  refine ⟨Q', Carried R s s' s.next (s'.next + 1), step_halted g1' h2, rfl, ?_⟩
  rw [armed_eq]
  refine twin_carried (q := s.queue) (ev := s.events) h le_rfl (Nat.le_succ _) (fun a b hc => ⟨rfl, (fset_other _ _ (Nat.ne_of_lt hc.2.2)).trans (fset_other _ _ (fun hx => ?_))⟩) (fun i hi => ?_) (fun i hi => ?_) ?_
    (fun e1 he1 => ?_) (fun e1 he1 => ?_) (fun e1 he1 => ?_) (fun e1 he1 => ?_)
  · subst hx; exact g2' _ hc.1
  · exact (h.fresh i hi).1
  · exact ((fset_other _ _ (Nat.ne_of_gt hi)).trans (fset_other _ _ (Nat.ne_of_gt (g3'.trans hi)))).trans (h.fresh' i (Nat.le_of_lt hi)).1
  · exact ⟨Q, Q', h1, rfl, h3, h4, h5, fun en hen hu => by rw [h6 en hen] at hu; cases hu⟩
  · cases he1; exact ⟨(h.gap e rfl).1, he⟩
  · cases he1; exact ⟨rfl, he⟩
  · cases he1; exact ⟨g1, fun b hb => g2 b hb.1, g3⟩
  · cases he1; exact ⟨fset_same _ _ _, fun b hb => absurd hb.2.2 (lt_irrefl _), Nat.lt_succ_self _⟩

/-! ## Calls -/

theorem runsOn_step {s1 x : Sim} {r : Except PyErr Unit} (h : s.step C = .ok s1) : RunsOn C s1 x r ↔ RunsOn C s x r := by
  refine ⟨.more h, fun hr => ?_⟩
  cases hr with
  | stopped h' => rw [h] at h'; cases h'
  | raised h' => rw [h] at h'; cases h'
  | more h' hr => rw [h] at h'; cases h'; exact hr

theorem runsOn_congr {u x : Sim} {r : Except PyErr Unit} (h : u.step C = s.step C) : RunsOn C u x r ↔ RunsOn C s x r := by
  constructor <;> intro hr
  · cases hr with
    | stopped h' => exact .stopped (h ▸ h')
    | raised h' => exact .raised (h ▸ h')
    | more h' hr => exact .more (h ▸ h') hr
  · cases hr with
    | stopped h' => exact .stopped (h ▸ h')
    | raised h' => exact .raised (h ▸ h')
    | more h' hr => exact .more (h ▸ h') hr

theorem step_now (n : ℚ) : ({ s with now := n } : Sim).step C = s.step C := by
  unfold Sim.step
  cases s.queue <;> rfl

/-- Both go on until the second one is stopped, or an exception is raised in both. -/
def Meets (C : Cfg) (R : ℕ → ℕ → Prop) (e e' : Entry) (s s' : Sim) : Prop :=
  ∃ u u', Twin R (some e) (some e') u u' ∧ (∀ x r, RunsOn C u x r ↔ RunsOn C s x r) ∧ (∀ x r, RunsOn C u' x r ↔ RunsOn C s' x r) ∧
    (AtStop R e e' u u' ∨ ∃ v v' x, Twin R (some e) (some e') v v' ∧ u.step C = .raised v x ∧ u'.step C = .raised v' x)

theorem meets_step {e e' : Entry} {s1 s1' : Sim} (h1 : s.step C = .ok s1) (h2 : s'.step C = .ok s1') : Meets C R e e' s1 s1' → Meets C R e e' s s' := by
  rintro ⟨u, u', hu, hl, hr, ha⟩
  exact ⟨u, u', hu, fun x r => (hl x r).trans (runsOn_step h1), fun x r => (hr x r).trans (runsOn_step h2), ha⟩

theorem meets_left {e e' : Entry} {x : Sim} {r : Except PyErr Unit} (hr : RunsOn C s x r) : ∀ {s' : Sim}, Twin R (some e) (some e') s s' → e'.time ≤ e.time → Meets C R e e' s s' := by
  induction hr with
  | @stopped s x hst =>
    intro s' h he
    rcases twin_step (C := C) h he with ha | ⟨s1, s1', h1, ⟨h2, h3⟩ | ⟨y, h2, h3⟩⟩
    · exact ⟨s, s', h, fun _ _ => Iff.rfl, fun _ _ => Iff.rfl, .inl ha⟩
    · rw [h2] at hst; cases hst
    · rw [h2] at hst; cases hst
  | @raised s x y hst =>
    intro s' h he
    rcases twin_step (C := C) h he with ha | ⟨s1, s1', h1, ⟨h2, h3⟩ | ⟨y, h2, h3⟩⟩
    · exact ⟨s, s', h, fun _ _ => Iff.rfl, fun _ _ => Iff.rfl, .inl ha⟩
    · rw [h2] at hst; cases hst
    · exact ⟨s, s', h, fun _ _ => Iff.rfl, fun _ _ => Iff.rfl, .inr ⟨s1, s1', y, h1, h2, h3⟩⟩
  | @more s t x r hst hr ih =>
    intro s' h he
    rcases twin_step (C := C) h he with ha | ⟨s1, s1', h1, ⟨h2, h3⟩ | ⟨y, h2, h3⟩⟩
    · exact ⟨s, s', h, fun _ _ => Iff.rfl, fun _ _ => Iff.rfl, .inl ha⟩
    · have h2' := h2
      rw [hst] at h2'; cases h2'
      exact meets_step h2 h3 (ih h1 he)
    · rw [h2] at hst; cases hst

theorem meets_right {e e' : Entry} {x : Sim} {r : Except PyErr Unit} (hr : RunsOn C s' x r) : ∀ {s : Sim}, Twin R (some e) (some e') s s' → e'.time ≤ e.time → Meets C R e e' s s' := by
  induction hr with
  | @stopped s' x hst =>
    intro s h he
    rcases twin_step (C := C) h he with ha | ⟨s1, s1', h1, ⟨h2, h3⟩ | ⟨y, h2, h3⟩⟩
    · exact ⟨s, s', h, fun _ _ => Iff.rfl, fun _ _ => Iff.rfl, .inl ha⟩
    · rw [h3] at hst; cases hst
    · rw [h3] at hst; cases hst
  | @raised s' x y hst =>
    intro s h he
    rcases twin_step (C := C) h he with ha | ⟨s1, s1', h1, ⟨h2, h3⟩ | ⟨y, h2, h3⟩⟩
    · exact ⟨s, s', h, fun _ _ => Iff.rfl, fun _ _ => Iff.rfl, .inl ha⟩
    · rw [h3] at hst; cases hst
    · exact ⟨s, s', h, fun _ _ => Iff.rfl, fun _ _ => Iff.rfl, .inr ⟨s1, s1', y, h1, h2, h3⟩⟩
  | @more s' t x r hst hr ih =>
    intro s h he
    rcases twin_step (C := C) h he with ha | ⟨s1, s1', h1, ⟨h2, h3⟩ | ⟨y, h2, h3⟩⟩
    · exact ⟨s, s', h, fun _ _ => Iff.rfl, fun _ _ => Iff.rfl, .inl ha⟩
    · have h3' := h3
      rw [hst] at h3'; cases h3'
      exact meets_step h2 h3 (ih h1 he)
    · rw [h3] at hst; cases hst

end Verif
