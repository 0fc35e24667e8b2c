import Verif.Lemmas.SimStep
/-! # All states of simulations satisfy the invariants -/
namespace Verif
open Verif.Spec

variable {rf : ℚ} {s s' : Sim} {st : Stage} {c p : ℕ}

/-! ## Losing callbacks -/

/-- Only callbacks are lost. -/
structure Thin (s s' : Sim) : Prop where
  next : s'.next = s.next
  points : s'.points = s.points
  target : s'.target = s.target
  value : ∀ ev, (s'.events ev).value = (s.events ev).value
  sub : ∀ ev, List.Sublist (s'.cbs ev) (s.cbs ev)
  none : ∀ ev, (s.events ev).callbacks = Option.none → (s'.events ev).callbacks = Option.none
  exc : ∀ ev, Excused s ev → Excused s' ev

theorem thin_quiet (h : Thin s s') {x : ℕ} (hx : Quiet s x) : Quiet s' x :=
  ⟨by rw [h.next]; exact hx.1, by rw [h.points]; exact hx.2.1, fun p hp => hx.2.2 p ((h.sub x).subset hp)⟩

theorem inv_thin (h : Inv s) (ht : Thin s s') (hsorted : s'.queue.Pairwise Entry.upTo) (hq : ∀ en ∈ s'.queue, en ∈ s.queue)
    (hahead : ∀ en ∈ s'.queue, s'.now ≤ en.time) (hnow : s.now ≤ s'.now) (ha : s'.activate = s.activate) (hpr : s'.procActivate = s.procActivate)
    (hen : s'.envActivate = s.envActivate) (htr : s'.trace = s.trace) : Inv s' := by
  refine ⟨hsorted, hahead, fun en he => (h.grid en (hq en he)).imp_right (ht.exc _), fun ev q hm => ?_, fun ev q => ((ht.sub ev).count_le _).trans (h.once ev q),
    fun ev q hm => ⟨by rw [ht.value]; exact (h.intr ev q ((ht.sub ev).subset hm)).1, fun r hr => (h.intr ev q ((ht.sub ev).subset hm)).2.1 r ((ht.sub ev).subset hr),
      fun hr => (h.intr ev q ((ht.sub ev).subset hm)).2.2 ((ht.sub ev).subset hr)⟩,
    fun ev d hm => thin_quiet ht (h.chk ev d ((ht.sub ev).subset hm)), fun ev hev => ?_, fun en he => by rw [ht.next]; exact h.known en (hq en he), fun en he => by rw [ht.value]; exact h.queued en (hq en he), fun q hqq => ?_, fun q pt hqq => ?_,
    fun n a hm => thin_quiet ht (h.act n a (by rwa [ha] at hm)), by rw [hpr]; exact thin_quiet ht h.proc, by rw [hen]; exact thin_quiet ht h.env, fun x hx => ?_, by rw [htr]; exact h.order⟩
  · rw [ht.target, ht.points]; exact h.res ev q ((ht.sub ev).subset hm)
  · rw [ht.next] at hev
    have := h.fresh ev hev
    exact ⟨ht.none ev this.1, by rw [ht.value]; exact this.2.1, by rw [ht.points]; exact this.2.2⟩
  · rw [ht.points] at hqq; rw [ht.value]; exact h.live q hqq
  · rw [ht.points] at hqq
    rw [ht.target]
    exact ptOk_move (h.wait q pt hqq) fun t _ htm => ⟨by rw [ht.value]; exact htm.1, fun en he => htm.2 en (hq en he)⟩
  · rw [htr] at hx
    have := h.trace x hx
    exact ⟨this.1, this.2.1, this.2.2.trans hnow⟩

theorem rules_thin (h : Rules₂ rf s st c) (ht : Thin s s') (htr : s'.trace = s.trace) : Rules₂ rf s' st c :=
  ⟨⟨by rw [ht.next]; exact h.main_lt, by rw [ht.next]; exact h.c_lt, h.ne, by rw [htr]; exact h.stage, fun q pt hq => h.mods q pt (by rwa [ht.points] at hq),
    fun pt hq => by rw [ht.points] at hq ⊢; rw [ht.target]; exact h.main pt hq⟩, fun pt hq => h.child pt (by rwa [ht.points] at hq),
    fun hq hv => h.ended (by rwa [ht.points] at hq) (by rwa [ht.value] at hv), fun pt hq hpt hn => by rw [ht.points] at hq hn; rw [ht.value]; exact h.over pt hq hpt hn⟩

/-- Callbacks that are never removed. -/
def Callback.fixed : Callback → Bool
  | .stop => true
  | .interrupt _ => true
  | _ => false

theorem others_thin (h : Thin s s') (hn : s'.now = s.now) (hq : s'.queue = s.queue) (hs : ∀ ev (cb : Callback), cb.fixed = true → (cb ∈ s'.cbs ev ↔ cb ∈ s.cbs ev)) : Others p s s' :=
  ⟨hn, h.next.ge, fun q _ _ => by rw [h.points], fun q _ _ => by rw [h.target], fun ev v hv => by rw [h.value]; exact hv,
    fun ev q _ _ hm => (h.sub ev).subset hm, fun ev q _ => hs ev _ rfl, fun en he => by rw [hq]; exact he, fun en he => .inl (by rwa [hq] at he), fun ev => hs ev _ rfl⟩

theorem thin_drop {ev : ℕ} {cb : Callback} (hcb : cb ≠ .stop) : Thin s (s.dropCallback ev cb) := by
  have hother : ∀ x, x ≠ ev → (s.dropCallback ev cb).events x = s.events x := fun x hx => by simp [Sim.dropCallback, fset, hx]
  have hsame : ((s.dropCallback ev cb).events ev).callbacks = (s.events ev).callbacks.map (·.erase cb) := by simp [Sim.dropCallback, fset]
  refine ⟨rfl, rfl, rfl, fun x => ?_, fun x => ?_, fun x hx => ?_, fun x hx => ?_⟩
  · by_cases he : x = ev
    · subst he; simp [Sim.dropCallback, fset]
    · rw [hother x he]
  · unfold Sim.cbs
    by_cases he : x = ev
    · subst he
      rw [hsame]
      cases (s.events x).callbacks with
      | none => simp
      | some l => exact List.erase_sublist
    · rw [hother x he]
  · by_cases he : x = ev
    · subst he; rw [hsame, hx]; rfl
    · rw [hother x he]; exact hx
  · by_cases he : x = ev
    · subst he
      unfold Excused Sim.cbs at *
      rw [hsame]
      cases hc : (s.events x).callbacks with
      | none => exact .inr rfl
      | some l =>
        rw [hc] at hx
        exact .inl ((List.mem_erase_of_ne hcb.symm).2 (hx.resolve_right (by simp)))
    · unfold Excused Sim.cbs at *; rw [hother x he]; exact hx

theorem stops_drop {ev : ℕ} {cb : Callback} (hcb : cb.fixed = false) (x : ℕ) (d : Callback) (hd : d.fixed = true) : d ∈ (s.dropCallback ev cb).cbs x ↔ d ∈ s.cbs x := by
  have hne : d ≠ cb := by rintro rfl; rw [hcb] at hd; cases hd
  unfold Sim.cbs Sim.dropCallback
  by_cases he : x = ev
  · subst he
    simp only [fset_same]
    cases (s.events x).callbacks with
    | none => simp
    | some l => exact List.mem_erase_of_ne hne
  · simp [fset, he]

theorem stops_defuse {ev : ℕ} (x : ℕ) (d : Callback) (_ : d.fixed = true) : d ∈ (s.defuse ev).cbs x ↔ d ∈ s.cbs x := by
  unfold Sim.cbs Sim.defuse
  by_cases he : x = ev
  · subst he; simp [fset]
  · simp [fset, he]

theorem cbs_drop (s : Sim) (ev : ℕ) (cb : Callback) : (s.dropCallback ev cb).cbs ev = (s.cbs ev).erase cb := by
  unfold Sim.cbs Sim.dropCallback
  simp only [fset_same]
  cases (s.events ev).callbacks <;> simp

theorem thin_defuse {ev : ℕ} : Thin s (s.defuse ev) := by
  have h : ∀ x, ((s.defuse ev).events x).value = (s.events x).value ∧ ((s.defuse ev).events x).callbacks = (s.events x).callbacks := fun x => by
    by_cases he : x = ev
    · subst he; simp [Sim.defuse, fset]
    · simp [Sim.defuse, fset, he]
  refine ⟨rfl, rfl, rfl, fun x => (h x).1, fun x => ?_, fun x hx => by rw [(h x).2]; exact hx, fun x hx => ?_⟩
  · unfold Sim.cbs; rw [(h x).2]
  · unfold Excused Sim.cbs at *; rw [(h x).2]; exact hx

/-- Both invariants, while processes run. -/
def Good (rf : ℚ) (s : Sim) : Prop := Run s ∧ Cycling rf s

theorem good_drop {ev : ℕ} {cb : Callback} (hcb : cb ≠ .stop) (h : Good rf s) : Good rf (s.dropCallback ev cb) := by
  obtain ⟨⟨h, hg⟩, st, c, hr⟩ := h
  exact ⟨⟨inv_thin h (thin_drop hcb) h.sorted (fun _ h => h) h.ahead le_rfl rfl rfl rfl rfl, hg⟩, st, c, rules_thin hr (thin_drop hcb) rfl⟩

theorem good_defuse {ev : ℕ} (h : Good rf s) : Good rf (s.defuse ev) := by
  obtain ⟨⟨h, hg⟩, st, c, hr⟩ := h
  exact ⟨⟨inv_thin h thin_defuse h.sorted (fun _ h => h) h.ahead le_rfl rfl rfl rfl rfl, hg⟩, st, c, rules_thin hr thin_defuse rfl⟩

/-! ## Callbacks -/

/-- What is known of the callbacks of event `ev`, with value `v`, that are still to be called. -/
structure Pending (ev : ℕ) (v : Except PyErr SVal) (l : List Callback) (s : Sim) : Prop where
  res : ∀ q, .resume q ∈ l → Loose s q ∧ s.target q = ev ∧ ∃ pt, s.points q = some pt ∧ ∀ t, pt.due = some t → t = s.now
  once : ∀ q, l.count (.resume q) ≤ 1
  intr : ∀ q, .interrupt q ∈ l → v = .error .interrupt ∧ ∀ r, .resume r ∉ l
  chk : ∀ c, .check c ∈ l → Quiet s c
  val : v = .ok .procs → (s.events ev).value = some v

theorem pending_tail {ev : ℕ} {v : Except PyErr SVal} {cb : Callback} {l : List Callback} (hi : Inv s) (h : Pending ev v (cb :: l) s) {p : ℕ} (ho : Others p s s')
    (hp : .resume p ∉ l) (hq : ∀ x, Quiet s x → x ≠ p) : Pending ev v l s' := by
  refine ⟨fun q hm => ?_, fun q => le_trans (List.count_le_count_cons) (h.once q), fun q hm => ⟨(h.intr q (.tail _ hm)).1, fun r hr => (h.intr q (.tail _ hm)).2 r (.tail _ hr)⟩,
    fun c hm => ?_, fun hv => ho.value _ _ (h.val hv)⟩
  · have hne : q ≠ p := by rintro rfl; exact hp hm
    obtain ⟨hl, ht, pt, hpt, hd⟩ := h.res q (.tail _ hm)
    have hlt := points_lt hi hpt
    exact ⟨fun x hx => hl x (ho.res x q hne hlt hx), (ho.target q hlt hne).trans ht, pt, (ho.points q hlt hne).trans hpt, fun t htt => (hd t htt).trans ho.now.symm⟩
  · have hc := h.chk c (.tail _ hm)
    exact ⟨hc.1.trans_le ho.next, (ho.points c hc.1 (hq c hc)).trans hc.2.1, fun q hx => hc.2.2 q ((ho.intr c q hc.1).1 hx)⟩

theorem good_trigger {v : Except PyErr SVal} (h : Good rf s) (hv : s.triggered c = false) (hq : Quiet s c) (hne : v ≠ .ok .procs) :
    Good rf (s.trigger c v) ∧ Mild s (s.trigger c v) := by
  obtain ⟨h, st, d, hr⟩ := h
  obtain ⟨a, b⟩ := full_trigger (v := v) h (by simpa [Sim.triggered] using hv) hq hne
  exact ⟨⟨a, st, d, rules_full hr b⟩, b.1⟩

/-- What processes do not change: the clock, what is scheduled, when the run is to be stopped, and which processes have ended. -/
structure Stays (s s' : Sim) : Prop where
  now : s'.now = s.now
  next : s.next ≤ s'.next
  queue : ∀ en ∈ s.queue, en ∈ s'.queue
  newq : ∀ en ∈ s'.queue, en ∈ s.queue ∨ (s.events en.ev).value = Option.none
  stops : ∀ ev, .stop ∈ s'.cbs ev ↔ .stop ∈ s.cbs ev
  intr : ∀ ev q, ev < s.next → (.interrupt q ∈ s'.cbs ev ↔ .interrupt q ∈ s.cbs ev)
  value : ∀ ev v, (s.events ev).value = some v → (s'.events ev).value = some v
  gone : ∀ q < s.next, s.points q = Option.none → s'.points q = Option.none

theorem stays_refl (s : Sim) : Stays s s := ⟨rfl, le_rfl, fun _ h => h, fun _ h => .inl h, fun _ => .rfl, fun _ _ _ => .rfl, fun _ _ h => h, fun _ _ h => h⟩

theorem stays_trans {a b d : Sim} (h1 : Stays a b) (h2 : Stays b d) : Stays a d :=
  ⟨h2.now.trans h1.now, h1.next.trans h2.next, fun en h => h2.queue en (h1.queue en h), fun en h => (h2.newq en h).elim (h1.newq en)
      fun hv => .inr (by_contra fun hc => by
        obtain ⟨v, hc⟩ := Option.ne_none_iff_exists'.1 hc
        rw [h1.value _ _ hc] at hv; cases hv), fun ev => (h2.stops ev).trans (h1.stops ev),
    fun ev q hev => (h2.intr ev q (hev.trans_le h1.next)).trans (h1.intr ev q hev), fun ev v h => h2.value ev v (h1.value ev v h),
    fun q hq h => h2.gone q (hq.trans_le h1.next) (h1.gone q hq h)⟩

theorem stays_others (h : Others p s s') (hp : s.next ≤ p ∨ s.points p ≠ Option.none) : Stays s s' :=
  ⟨h.now, h.next, h.queue, h.newq, h.stops, h.intr, h.value, fun q hq hn => (h.points q hq (by
    rintro rfl
    rcases hp with hp | hp
    · exact absurd hq (not_lt.2 hp)
    · exact hp hn)).trans hn⟩

theorem good_callback (C : Cfg) {ev : ℕ} {v : Except PyErr SVal} {cb : Callback} {l : List Callback} (h : Good C.ruleFiring s) (hp : Pending ev v (cb :: l) s) :
    Good C.ruleFiring (callback C ev v s cb) ∧ Pending ev v l (callback C ev v s cb) ∧
    ∃ q, Others q s (callback C ev v s cb) ∧ (q = s.next ∨ ((cb = .resume q ∨ cb = .interrupt q) ∧ s.points q ≠ Option.none)) := by
  have hi := h.1.1
  -- the next callbacks when no process has run
  have hsame : ∀ s', Others s.next s s' → Pending ev v l s' := fun s' ho => by
    refine pending_tail hi hp ho (fun hm => ?_) fun x hx => Nat.ne_of_lt hx.1
    obtain ⟨_, _, pt, hpt, _⟩ := hp.res s.next (.tail _ hm)
    exact absurd (points_lt hi hpt) (lt_irrefl _)
  have hstay : ∀ s', Others s.next s s' → ∃ q, Others q s s' ∧ (q = s.next ∨ ((cb = .resume q ∨ cb = .interrupt q) ∧ s.points q ≠ Option.none)) := fun s' ho =>
    ⟨s.next, ho, .inl rfl⟩
  cases cb with
  | resume p =>
    obtain ⟨hl, ht, pt, hpt, hd⟩ := hp.res p (.head _)
    have hnot : .resume p ∉ l := fun hm => by
      have := hp.once p
      rw [List.count_cons_self] at this
      have := List.count_pos_iff.2 hm
      omega
    have hqn : ∀ x, Quiet s x → x ≠ p := by rintro x hx rfl; rw [hx.2.1] at hpt; cases hpt
    rcases v with x | v
    · have hg := good_defuse (ev := ev) h
      have ho := others_thin (p := p) (thin_defuse (s := s) (ev := ev)) rfl rfl stops_defuse
      obtain ⟨a, b, d⟩ := resume_run (C := C) (x := .error x) hg.1 hg.2 (p := p) hpt (fun y hy => hl y ((thin_defuse (s := s) (ev := ev)).sub y |>.subset hy)) (by simp) (by simp)
      exact ⟨⟨a, d⟩, pending_tail hi hp (others_trans ho b) hnot hqn, p, others_trans ho b, .inr ⟨.inl rfl, by rw [hpt]; simp⟩⟩
    · obtain ⟨a, b, d⟩ := resume_run (C := C) (x := .ok v) h.1 h.2 hpt hl (fun t u htt _ => hd t htt) fun hx => by
        rw [ht]; rw [← hx]; exact hp.val hx
      exact ⟨⟨a, d⟩, pending_tail hi hp b hnot hqn, p, b, .inr ⟨.inl rfl, by rw [hpt]; simp⟩⟩
  | interrupt p =>
    obtain ⟨rfl, hno⟩ := hp.intr p (.head _)
    simp only [callback]
    by_cases ht : s.triggered p = true
    · rw [if_pos ht]; exact ⟨h, hsame s (others_mild (mild_refl s)), hstay s (others_mild (mild_refl s))⟩
    · rw [if_neg ht]
      have hg := good_drop (ev := s.target p) (cb := .resume p) (by simp) h
      have hth : Thin s (s.dropCallback (s.target p) (.resume p)) := thin_drop (by simp)
      have hloose : Loose (s.dropCallback (s.target p) (.resume p)) p := by
        intro x hx
        by_cases he : x = s.target p
        · subst he
          rw [cbs_drop] at hx
          have h1 := List.count_pos_iff.2 hx
          rw [List.count_erase_self] at h1
          have := hi.once (s.target p) p
          omega
        · exact he (hi.res x p ((hth.sub x).subset hx)).1.symm
      cases hpt : s.points p with
      | none =>
        have : (s.dropCallback (s.target p) (.resume p)).resume C p (.error .interrupt) = s.dropCallback (s.target p) (.resume p) := by
          unfold Sim.resume
          have : (s.dropCallback (s.target p) (.resume p)).points p = Option.none := hpt
          rw [this]
        rw [this]
        exact ⟨hg, hsame _ (others_thin hth rfl rfl (stops_drop rfl)), hstay _ (others_thin hth rfl rfl (stops_drop rfl))⟩
      | some pt =>
        obtain ⟨a, b, d⟩ := resume_run (C := C) (x := .error .interrupt) hg.1 hg.2 (p := p) (pt := pt) hpt hloose (by simp) (by simp)
        have hqn : ∀ x, Quiet s x → x ≠ p := by rintro x hx rfl; rw [hx.2.1] at hpt; cases hpt
        exact ⟨⟨a, d⟩, pending_tail hi hp (others_trans (others_thin hth rfl rfl (stops_drop rfl)) b) (fun hm => hno p (.tail _ hm)) hqn,
          p, others_trans (others_thin hth rfl rfl (stops_drop rfl)) b, .inr ⟨.inr rfl, by rw [hpt]; simp⟩⟩
  | check d =>
    have hq := hp.chk d (.head _)
    simp only [callback]
    by_cases ht : s.triggered d = true
    · rw [if_pos ht]; exact ⟨h, hsame s (others_mild (mild_refl s)), hstay s (others_mild (mild_refl s))⟩
    · rw [if_neg ht]
      rcases v with x | v
      · have hg := good_defuse (ev := ev) h
        have hth : Thin s (s.defuse ev) := thin_defuse
        have hq' : Quiet (s.defuse ev) d := thin_quiet hth hq
        have ht' : (s.defuse ev).triggered d = false := by
          unfold Sim.triggered at *; rw [hth.value]; simpa using ht
        obtain ⟨a, b⟩ := good_trigger (v := .error x) hg ht' hq' (by simp)
        exact ⟨a, hsame _ (others_trans (others_thin hth rfl rfl stops_defuse) (others_mild b)), hstay _ (others_trans (others_thin hth rfl rfl stops_defuse) (others_mild b))⟩
      · obtain ⟨a, b⟩ := good_trigger (v := .ok .nothing) h (by simpa using ht) hq (by simp)
        exact ⟨a, hsame _ (others_mild b), hstay _ (others_mild b)⟩
  | build d a b =>
    have h1 : Thin s (s.dropCallback a (.check d)) := thin_drop (by simp)
    have h2 : Thin (s.dropCallback a (.check d)) ((s.dropCallback a (.check d)).dropCallback b (.check d)) := thin_drop (by simp)
    exact ⟨good_drop (by simp) (good_drop (by simp) h), hsame _ (others_trans (others_thin h1 rfl rfl (stops_drop rfl)) (others_thin h2 rfl rfl (stops_drop rfl))), hstay _ (others_trans (others_thin h1 rfl rfl (stops_drop rfl)) (others_thin h2 rfl rfl (stops_drop rfl)))⟩
  | stop => exact ⟨h, hsame s (others_mild (mild_refl s)), hstay s (others_mild (mild_refl s))⟩

theorem good_callbacks (C : Cfg) {ev : ℕ} {v : Except PyErr SVal} : ∀ (l : List Callback) {s : Sim}, Good C.ruleFiring s → Pending ev v l s →
    Good C.ruleFiring (l.foldl (callback C ev v) s) ∧ Stays s (l.foldl (callback C ev v) s)
  | [], s, h, _ => ⟨h, stays_refl s⟩
  | cb :: l, s, h, hp => by
    obtain ⟨a, b, d⟩ := good_callback C h hp
    obtain ⟨e, f⟩ := good_callbacks C l a b
    obtain ⟨q, ho, hq⟩ := d
    exact ⟨e, stays_trans (stays_others ho (hq.imp (fun h => h.ge) fun h => h.2)) f⟩

/-! ## Steps -/

/-- The invariant between steps. -/
def Fine (rf : ℚ) (s : Sim) : Prop := Inv s ∧ Cycling rf s

/-- The state after taking the next event from the schedule. -/
def Sim.taken (s : Sim) (en : Entry) (q : List Entry) : Sim :=
  { s with now := en.time, queue := q, events := fset s.events en.ev { s.events en.ev with callbacks := Option.none } }

theorem thin_taken (s : Sim) (en : Entry) (q : List Entry) : Thin s (s.taken en q) := by
  have hother : ∀ x, x ≠ en.ev → (s.taken en q).events x = s.events x := fun x hx => by simp [Sim.taken, fset, hx]
  have hsame : ((s.taken en q).events en.ev).callbacks = Option.none := by simp [Sim.taken, fset]
  refine ⟨rfl, rfl, rfl, fun x => ?_, fun x => ?_, fun x hx => ?_, fun x hx => ?_⟩
  · by_cases he : x = en.ev
    · subst he; simp [Sim.taken, fset]
    · rw [hother x he]
  · unfold Sim.cbs
    by_cases he : x = en.ev
    · subst he; rw [hsame]; exact List.nil_sublist _
    · rw [hother x he]
  · by_cases he : x = en.ev
    · subst he; exact hsame
    · rw [hother x he]; exact hx
  · by_cases he : x = en.ev
    · subst he; exact .inr hsame
    · unfold Excused Sim.cbs at *; rw [hother x he]; exact hx

theorem fine_taken {en : Entry} {q : List Entry} (h : Fine rf s) (hq : s.queue = en :: q) : Fine rf (s.taken en q) := by
  obtain ⟨h, st, c, hr⟩ := h
  have hs := h.sorted
  rw [hq] at hs
  have hs := List.pairwise_cons.1 hs
  exact ⟨inv_thin h (thin_taken s en q) hs.2 (fun x hx => by rw [hq]; exact .tail _ hx) (fun x hx => upTo_le (hs.1 x hx)) (h.ahead en (by rw [hq]; exact .head _)) rfl rfl rfl rfl,
    st, c, rules_thin hr (thin_taken s en q) rfl⟩

theorem pending_taken {en : Entry} {q : List Entry} (h : Inv s) (hq : s.queue = en :: q) :
    Pending en.ev ((s.events en.ev).value.getD (.ok .nothing)) (s.cbs en.ev) (s.taken en q) := by
  have hth := thin_taken s en q
  have hen : en ∈ s.queue := by rw [hq]; exact .head _
  refine ⟨fun p hm => ?_, fun p => h.once en.ev p, fun p hm => ?_, fun d hm => thin_quiet hth (h.chk en.ev d hm), fun hv => ?_⟩
  · obtain ⟨ht, hp⟩ := h.res en.ev p hm
    obtain ⟨pt, hpt⟩ := Option.isSome_iff_exists.1 hp
    refine ⟨fun x hx => ?_, ht, pt, hpt, fun t hd => ?_⟩
    · have hx' := (hth.sub x).subset hx
      have hxe := (h.res x p hx').1
      rw [ht] at hxe
      subst hxe
      simp [Sim.cbs, Sim.taken, fset] at hx
    · have := ptOk_due (h.wait p pt hpt) hd
      rw [ht] at this
      exact (this.2 en hen rfl).1.symm
  · have := h.intr en.ev p hm
    exact ⟨by rw [this.1]; rfl, this.2.1⟩
  · rw [hth.value]
    cases hc : (s.events en.ev).value with
    | none => rw [hc] at hv; simp at hv
    | some u => rfl

/-- The state after the callbacks of the next event. -/
noncomputable def Sim.called (C : Cfg) (s : Sim) (en : Entry) (q : List Entry) : Sim :=
  (s.cbs en.ev).foldl (callback C en.ev ((s.events en.ev).value.getD (.ok .nothing))) (s.taken en q)

theorem fine_called (C : Cfg) {en : Entry} {q : List Entry} (h : Fine C.ruleFiring s) (hq : s.queue = en :: q) (hstop : .stop ∉ s.cbs en.ev) :
    Fine C.ruleFiring (s.called C en q) ∧ Stays (s.taken en q) (s.called C en q) := by
  have hf := fine_taken h hq
  unfold Sim.called
  rcases h.1.grid en (by rw [hq]; exact .head _) with hg | hg
  · obtain ⟨a, b⟩ := good_callbacks C (s.cbs en.ev) (s := s.taken en q) ⟨⟨hf.1, hg⟩, hf.2⟩ (pending_taken h.1 hq)
    exact ⟨⟨a.1.1, a.2⟩, b⟩
  · have : s.cbs en.ev = [] := by
      have := hg.resolve_left hstop
      simp [Sim.cbs, this]
    rw [this]; exact ⟨hf, stays_refl _⟩

theorem step_eq (C : Cfg) (s : Sim) : s.step C = match s.queue with
    | [] => .empty
    | en :: q => if .stop ∈ s.cbs en.ev then .stopped (s.taken en q) else
      match (s.events en.ev).value.getD (.ok .nothing) with
      | .error x => if ((s.called C en q).events en.ev).defused then .ok (s.called C en q) else .raised (s.called C en q) x
      | .ok _ => .ok (s.called C en q) := by
  unfold Sim.step
  cases s.queue with
  | nil => rfl
  | cons en q =>
    simp only [List.contains_iff_mem]
    rfl

/-- The state after a step is one of these. -/
theorem step_cases {C : Cfg} {r : Stepped} (h : s.step C = r) : (r = .empty ∧ s.queue = []) ∨ ∃ en q, s.queue = en :: q ∧
    ((.stop ∈ s.cbs en.ev ∧ r = .stopped (s.taken en q)) ∨
     (.stop ∉ s.cbs en.ev ∧ (r = .ok (s.called C en q) ∨ ∃ x, r = .raised (s.called C en q) x))) := by
  rw [step_eq] at h
  cases hq : s.queue with
  | nil => rw [hq] at h; exact .inl ⟨h.symm, rfl⟩
  | cons en q =>
    rw [hq] at h
    dsimp only at h
    refine .inr ⟨en, q, rfl, ?_⟩
    by_cases hs : .stop ∈ s.cbs en.ev
    · rw [if_pos hs] at h; exact .inl ⟨hs, h.symm⟩
    · rw [if_neg hs] at h
      refine .inr ⟨hs, ?_⟩
      cases hv : (s.events en.ev).value.getD (.ok .nothing) with
      | ok v => rw [hv] at h; exact .inl h.symm
      | error x =>
        rw [hv] at h
        dsimp only at h
        split at h
        · exact .inl h.symm
        · exact .inr ⟨x, h.symm⟩

theorem fine_step {C : Cfg} (h : Fine C.ruleFiring s) :
    (∀ s', s.step C = .ok s' → Fine C.ruleFiring s' ∧ ∃ en ∈ s.queue, s'.now = en.time) ∧ (∀ s', s.step C = .stopped s' → Fine C.ruleFiring s') ∧ (∀ s' x, s.step C = .raised s' x → Fine C.ruleFiring s') := by
  have key : ∀ r, s.step C = r → match r with | .ok s' => Fine C.ruleFiring s' ∧ ∃ en ∈ s.queue, s'.now = en.time | .stopped s' => Fine C.ruleFiring s' | .raised s' _ => Fine C.ruleFiring s' | .empty => True := by
    intro r hr
    rcases step_cases hr with ⟨rfl, _⟩ | ⟨en, q, hq, ⟨_, rfl⟩ | ⟨hs, rfl | ⟨x, rfl⟩⟩⟩
    · trivial
    · exact fine_taken h hq
    · obtain ⟨a, b⟩ := fine_called C h hq hs
      exact ⟨a, en, by rw [hq]; exact .head _, b.now⟩
    · exact (fine_called C h hq hs).1
  exact ⟨fun s' hs => key _ hs, fun s' hs => key _ hs, fun s' x hs => key _ hs⟩

/-! ## The beginning -/

theorem inv_blank (w : Mach) (args : Option EnvArgs) (t : ℚ) : Run (Sim.blank w args t) := by
  have hcb : ∀ x, (Sim.blank w args t).cbs x = [] := fun x => by
    simp only [Sim.cbs, Sim.blank]
    split <;> rfl
  refine ⟨⟨List.Pairwise.nil, by simp [Sim.blank], by simp [Sim.blank], fun ev p hp => by simp [hcb] at hp, fun ev p => by simp [hcb], fun ev p hp => by simp [hcb] at hp,
    fun ev p hp => by simp [hcb] at hp, fun ev hev => ?_, by simp [Sim.blank], by simp [Sim.blank], fun _ _ => rfl, fun p pt hp => by simp [Sim.blank] at hp, by simp [Sim.blank],
    ⟨by simp [Sim.blank], rfl, by simp [hcb]⟩, ⟨by simp [Sim.blank], rfl, by simp [hcb]⟩, by simp [Sim.blank], List.Pairwise.nil⟩, onGrid_round4 _⟩
  have h2 : ¬ ev < 2 := not_lt.2 hev
  exact ⟨by simp only [Sim.blank, h2, if_false], rfl, rfl⟩

theorem doing_initExtra : ∀ (l : List String) {s : Sim}, Run s → Doing (initExtra l) s (fun _ _ => True)
  | [], _, h => doing_pure h trivial
  | n :: r, s, h => by
    unfold initExtra
    split
    · exact doing_initExtra r h
    · refine doing_bind (doing_process h (fun _ _ => trivial) rfl trivial) fun p s1 h1 f1 _ => ?_
      refine doing_bind (doing_newEvent h1) fun a s2 h2 f2 hq => ?_
      refine doing_bind (Q := fun _ _ => True) ?_ fun _ s3 h3 f3 _ => doing_initExtra r h3
      obtain ⟨h, hg⟩ := h2
      refine ⟨⟨⟨h.sorted, h.ahead, h.grid, h.res, h.once, h.intr, h.chk, h.fresh, h.known, h.queued, h.live, h.wait, fun m b hb => ?_, h.proc, h.env, h.trace, h.order⟩, hg⟩,
          ⟨⟨rfl, le_rfl, fun _ _ => rfl, fun _ _ => rfl, fun _ _ h => h, fun _ _ => rfl, fun _ _ _ h => .inr h, fun _ h => h, fun _ h => .inl h, fun _ => .rfl⟩, rfl, fun _ h => h, fun _ _ h => .inl h, le_rfl⟩, by simp⟩
      rcases List.mem_append.1 hb with hb | hb
      · exact h.act m b hb
      · simp only [List.mem_singleton, Prod.mk.injEq] at hb
        rw [hb.2]; exact hq

theorem rules_start (w : Mach) (args : Option EnvArgs) (t : ℚ) : Rules₂ rf (process .procNew (Sim.blank w args t)).1 .idle 0 := by
  have hpts : ∀ q, (process .procNew (Sim.blank w args t)).1.points q = if q = 2 then some .procNew else Option.none := fun q => rfl
  refine ⟨⟨by show 2 < 2 + 2; omega, by show 0 < 2 + 2; omega, by omega, rfl, fun p pt hp _ => ?_, fun pt hp => ?_⟩, fun pt hp => ?_, fun _ _ => rfl, fun pt hp hpt _ => ?_⟩
  · rw [hpts] at hp
    split at hp
    · rename_i h; subst h; cases hp; rfl
    · cases hp
  · rw [hpts] at hp
    cases hp
    exact .inr ⟨.inl rfl, rfl, by rw [hpts]; rfl⟩
  · rw [hpts] at hp; simp at hp
  · rw [hpts] at hp; cases hp; rcases hpt with h | h <;> cases h

theorem fine_init (w : Mach) (args : Option EnvArgs) (t : ℚ) : Good rf (Sim.init w args t) := by
  have h0 := inv_blank w args t
  obtain ⟨h1, _⟩ := run_process (pt := .procNew) h0 (fun _ _ => trivial) rfl
  have hd : Doing (do initExtra (w.bufs.map Prod.fst); if w.env.isSome then do let _ ← process .envNew; pure () else pure () : SimM Unit)
      (process .procNew (Sim.blank w args t)).1 (fun _ _ => True) := by
    refine doing_bind (doing_initExtra _ h1) fun _ s1 h1 _ _ => ?_
    split
    · exact doing_bind (doing_process h1 (fun _ _ => trivial) rfl trivial) fun _ s2 h2 _ _ => doing_pure h2 trivial
    · exact doing_pure h1 trivial
  exact ⟨hd.1, _, _, rules_full (rules_start w args t) hd.2.1⟩

theorem fine_setStop {q : ℚ} (h : Fine rf s) : Fine rf (s.setStop q).1 := by
  unfold Sim.setStop
  split
  · exact h
  · rename_i hq
    obtain ⟨h, st, c, hr⟩ := h
    have hE : ∀ p, Callback.resume p ∉ (⟨some (.ok .nothing), false, some [.stop]⟩ : SEv).callbacks.getD [] := by simp
    have hi := inv_alloc h hE (by simp) (by simp)
    have hv : ∀ ev, (((s.alloc ⟨some (.ok .nothing), false, some [.stop]⟩).schedule s.next true (q - s.now)).events ev).value = some (.ok .procs) →
        (s.events ev).value = some (.ok .procs) := fun ev he => ?_
    refine ⟨inv_schedule hi (Nat.lt_succ_self _) (by linarith [not_le.1 hq]) (.inr (.inl ?_)) (fun p pt t hp ht he => ?_) (by rw [events_alloc_new]; rfl), st, c,
      ⟨⟨Nat.lt_succ_of_lt hr.main_lt, Nat.lt_succ_of_lt hr.c_lt, hr.ne, hr.stage, hr.mods, hr.main⟩, hr.child, fun hp hc => hr.ended hp (hv c hc), fun pt hp hpt hn => by
        rw [show ((s.alloc ⟨some (.ok .nothing), false, some [.stop]⟩).schedule s.next true (q - s.now)).events c = (s.alloc ⟨some (.ok .nothing), false, some [.stop]⟩).events c from rfl, events_alloc_old (Nat.ne_of_lt hr.c_lt)]
        exact hr.over pt hp hpt hn⟩⟩
    · rw [cbs_alloc_new]; simp
    · have := (ptOk_due (h.wait p pt hp) ht).1
      have he : s.target p = s.next := he
      rw [he, (h.fresh _ le_rfl).2.1] at this
      cases this
    · by_cases hne : ev = s.next
      · subst hne
        have : ((s.alloc ⟨some (.ok .nothing), false, some [.stop]⟩).events s.next).value = some (.ok .procs) := he
        rw [events_alloc_new] at this
        simp at this
      · have : ((s.alloc ⟨some (.ok .nothing), false, some [.stop]⟩).events ev).value = some (.ok .procs) := he
        rw [events_alloc_old hne] at this
        exact this

theorem fine_compile {C : Cfg} (h : Fine C.ruleFiring s) : Fine C.ruleFiring (compileAtEnd C s).1 := by
  have key : ∀ w, Fine C.ruleFiring { s with w := w } := fun w => by
    obtain ⟨h, st, c, hr⟩ := h
    exact ⟨⟨h.sorted, h.ahead, h.grid, h.res, h.once, h.intr, h.chk, h.fresh, h.known, h.queued, h.live, h.wait, h.act, h.proc, h.env, h.trace, h.order⟩, st, c,
      ⟨⟨hr.main_lt, hr.c_lt, hr.ne, hr.stage, hr.mods, hr.main⟩, hr.child, hr.ended, hr.over⟩⟩
  unfold compileAtEnd
  split
  · split <;> exact key _
  · exact h

theorem fine_reachable {C : Cfg} {w : Mach} {args : Option EnvArgs} {t : ℚ} (h : Reachable C w args t s) : Fine C.ruleFiring s := by
  induction h with
  | init => exact ⟨(fine_init (rf := C.ruleFiring) w args t).1.1, (fine_init w args t).2⟩
  | @stop _ _ q _ _ hs ih => have := fine_setStop (q := q) ih; rw [hs] at this; exact this
  | step _ hs ih => exact ((fine_step ih).1 _ hs).1
  | stopped _ hs ih => exact (fine_step ih).2.1 _ hs
  | raised _ hs ih => exact (fine_step ih).2.2 _ _ hs
  | compile _ hs ih => have := fine_compile (C := C) ih; rw [hs] at this; exact this

end Verif
