import Verif.Lemmas.Sim
/-! # Simulations that are alike but for the numbers of their events -/
namespace Verif

variable {R : ℕ → ℕ → Prop} {E E' : Option Entry} {s s' : Sim} {a b : ℕ} {A B : Type}

/-! ## Schedules -/

/-- A schedule with one more entry, perhaps. -/
def withEntry : Option Entry → List Entry → List Entry
  | Option.none, l => l
  | some e, l => insertEntry e l

theorem before_iff {x y : Entry} : x.before y = true ↔ x.upTo y := by
  refine ⟨upTo_of_before, fun h => ?_⟩
  by_contra hn
  simp only [Entry.before, Bool.or_eq_true, decide_eq_true_eq, Bool.and_eq_true, Bool.not_eq_true', not_or, not_and] at hn
  rcases h with h | ⟨h, h'⟩
  · exact hn.1 h
  · have := hn.2 h.le
    rcases h' with h' | h'
    · exact this.1 h'
    · exact this.2 h'

/-- Two entries can be put into the schedule in any order if they do not rank alike. -/
theorem insertEntry_comm {x e : Entry} (h : x.upTo e) (hn : ¬ e.upTo x) : ∀ l, insertEntry x (insertEntry e l) = insertEntry e (insertEntry x l)
  | [] => by
    show (if e.before x then e :: insertEntry x [] else x :: e :: []) = (if x.before e then x :: insertEntry e [] else e :: x :: [])
    rw [if_neg (fun h => hn (before_iff.1 h)), if_pos (before_iff.2 h)]; rfl
  | q :: r => by
    by_cases he : q.upTo e
    · by_cases hx : q.upTo x
      · simp only [insertEntry, if_pos (before_iff.2 he), if_pos (before_iff.2 hx)]
        rw [insertEntry_comm h hn r]
      · simp only [insertEntry, if_pos (before_iff.2 he), if_neg (fun h => hx (before_iff.1 h)), if_pos (before_iff.2 h)]
    · have hx : ¬ q.upTo x := fun hq => he (upTo_trans hq h)
      simp only [insertEntry, if_neg (fun h => he (before_iff.1 h)), if_neg (fun h => hx (before_iff.1 h)), if_pos (before_iff.2 h), if_neg (fun h => hn (before_iff.1 h))]

/-- What is scheduled now does not rank like an urgent entry that lies ahead. -/
theorem withEntry_comm {now : ℚ} (hE : ∀ e, E = some e → e.urgent = true ∧ now < e.time) {x : Entry} (hx : x.urgent = true → x.time = now) (l : List Entry) :
    insertEntry x (withEntry E l) = withEntry E (insertEntry x l) := by
  cases E with
  | none => rfl
  | some e =>
    obtain ⟨hu, ht⟩ := hE e rfl
    show insertEntry x (insertEntry e l) = insertEntry e (insertEntry x l)
    by_cases hu' : x.urgent = true
    · exact insertEntry_comm (.inl (by rw [hx hu']; exact ht)) (fun h => absurd (upTo_le h) (by rw [hx hu']; exact not_le.2 ht)) l
    · by_cases h : x.time < e.time
      · exact insertEntry_comm (.inl h) (fun h' => absurd (upTo_le h') (not_le.2 h)) l
      · refine (insertEntry_comm ?_ ?_ l).symm
        · rcases (not_lt.1 h).lt_or_eq with h | h
          · exact .inl h
          · exact .inr ⟨h, .inl hu⟩
        · rintro (h' | ⟨_, h' | h'⟩)
          · exact h h'
          · exact hu' h'
          · rw [hu] at h'; cases h'

/-! ## What corresponds -/

/-- Every event corresponds to at most one of the other simulation. -/
structure OneOne (R : ℕ → ℕ → Prop) : Prop where
  left : ∀ {a b b'}, R a b → R a b' → b = b'
  right : ∀ {a a' b}, R a b → R a' b → a = a'

/-- Two events that are there correspond to each other. -/
def Corr (R : ℕ → ℕ → Prop) (s s' : Sim) (a b : ℕ) : Prop := R a b ∧ a < s.next ∧ b < s'.next

/-- Callbacks that correspond to each other. -/
inductive CbTwin (K : ℕ → ℕ → Prop) : Callback → Callback → Prop
  | resume {p q : ℕ} : K p q → CbTwin K (.resume p) (.resume q)
  | interrupt {p q : ℕ} : K p q → CbTwin K (.interrupt p) (.interrupt q)
  | check {p q : ℕ} : K p q → CbTwin K (.check p) (.check q)
  | build {c a b c' a' b' : ℕ} : K c c' → K a a' → K b b' → CbTwin K (.build c a b) (.build c' a' b')

/-- Places that correspond to each other. -/
inductive PtTwin (K : ℕ → ℕ → Prop) : Pt → Pt → Prop
  | main {n : String} {p q : ℕ} : K p q → PtTwin K (.extraMain n p) (.extraMain n q)
  | env {k : Mach → Out Mach EnvEvent Unit} {p q : ℕ} : K p q → PtTwin K (.envWait p k) (.envWait q k)
  | other {pt : Pt} : (∀ n p, pt ≠ .extraMain n p) → (∀ p k, pt ≠ .envWait p k) → PtTwin K pt pt

/-- Events that correspond to each other. -/
structure EvTwin (K : ℕ → ℕ → Prop) (x y : SEv) : Prop where
  value : x.value = y.value
  defused : x.defused = y.defused
  callbacks : Option.Rel (List.Forall₂ (CbTwin K)) x.callbacks y.callbacks

/-- Entries that correspond to each other. -/
structure EnTwin (K : ℕ → ℕ → Prop) (x y : Entry) : Prop where
  time : x.time = y.time
  urgent : x.urgent = y.urgent
  ev : K x.ev y.ev

/-- How processes go on. -/
inductive ResTwin (K : ℕ → ℕ → Prop) : Res → Res → Prop
  | wait {ev ev' : ℕ} {pt pt' : Pt} : K ev ev' → PtTwin K pt pt' → ResTwin K (.wait ev pt) (.wait ev' pt')
  | done {v : SVal} : ResTwin K (.done v) (.done v)

section
variable {K K' : ℕ → ℕ → Prop}

theorem CbTwin.mono (h : ∀ a b, K a b → K' a b) {x y : Callback} : CbTwin K x y → CbTwin K' x y
  | .resume h1 => .resume (h _ _ h1)
  | .interrupt h1 => .interrupt (h _ _ h1)
  | .check h1 => .check (h _ _ h1)
  | .build h1 h2 h3 => .build (h _ _ h1) (h _ _ h2) (h _ _ h3)

theorem PtTwin.mono (h : ∀ a b, K a b → K' a b) {x y : Pt} : PtTwin K x y → PtTwin K' x y
  | .main h1 => .main (h _ _ h1)
  | .env h1 => .env (h _ _ h1)
  | .other h1 h2 => .other h1 h2

theorem EvTwin.mono (h : ∀ a b, K a b → K' a b) {x y : SEv} (hx : EvTwin K x y) : EvTwin K' x y := by
  refine ⟨hx.value, hx.defused, ?_⟩
  have := hx.callbacks
  revert this
  generalize x.callbacks = o; generalize y.callbacks = o'
  intro h1
  cases h1 with
  | none => exact .none
  | some h1 => exact .some (h1.imp fun _ _ => CbTwin.mono h)

theorem EnTwin.mono (h : ∀ a b, K a b → K' a b) {x y : Entry} (hx : EnTwin K x y) : EnTwin K' x y := ⟨hx.time, hx.urgent, h _ _ hx.ev⟩

end

/-- Two simulations that are alike but for the numbers of their events and one more entry in each schedule, which stops `run`. -/
structure Twin (R : ℕ → ℕ → Prop) (E E' : Option Entry) (s s' : Sim) : Prop where
  one : OneOne R
  now : s.now = s'.now
  w : s.w = s'.w
  interruptibles : s.interruptibles = s'.interruptibles
  started : s.started = s'.started
  envArgs : s.envArgs = s'.envArgs
  trace : s.trace = s'.trace
  grow : ∀ i, R (s.next + i) (s'.next + i)
  events : ∀ a b, R a b → EvTwin (Corr R s s') (s.events a) (s'.events b)
  points : ∀ a b, R a b → Option.Rel (PtTwin (Corr R s s')) (s.points a) (s'.points b)
  target : ∀ a b, R a b → Corr R s s' (s.target a) (s'.target b)
  activate : List.Forall₂ (fun x y => x.1 = y.1 ∧ Corr R s s' x.2 y.2) s.activate s'.activate
  extra : List.Forall₂ (fun x y => x.1 = y.1 ∧ Corr R s s' x.2 y.2) s.extra s'.extra
  procActivate : Corr R s s' s.procActivate s'.procActivate
  envActivate : Corr R s s' s.envActivate s'.envActivate
  queue : ∃ Q Q', s.queue = withEntry E Q ∧ s'.queue = withEntry E' Q' ∧ List.Forall₂ (EnTwin (Corr R s s')) Q Q' ∧ Q.Pairwise Entry.upTo ∧
    (∀ en ∈ Q, s.now ≤ en.time) ∧ ∀ en ∈ Q, en.urgent = true → en.time ≤ s.now
  gap : ∀ e, E = some e → e.urgent = true ∧ s.now < e.time
  gap' : ∀ e, E' = some e → e.urgent = true ∧ s.now < e.time
  stop : ∀ e, E = some e → s.events e.ev = ⟨some (.ok .nothing), false, some [.stop]⟩ ∧ (∀ b, ¬ R e.ev b) ∧ e.ev < s.next
  stop' : ∀ e, E' = some e → s'.events e.ev = ⟨some (.ok .nothing), false, some [.stop]⟩ ∧ (∀ a, ¬ R a e.ev) ∧ e.ev < s'.next
  fresh : ∀ i, s.next ≤ i → s.events i = ⟨Option.none, false, Option.none⟩ ∧ s.points i = Option.none ∧ s.target i = 0
  fresh' : ∀ i, s'.next ≤ i → s'.events i = ⟨Option.none, false, Option.none⟩ ∧ s'.points i = Option.none ∧ s'.target i = 0

theorem Corr.mono {s1 s1' : Sim} (h : Corr R s s' a b) (h1 : s.next ≤ s1.next) (h2 : s'.next ≤ s1'.next) : Corr R s1 s1' a b := ⟨h.1, h.2.1.trans_le h1, h.2.2.trans_le h2⟩

/-! ## Changes -/

theorem twin_data (h : Twin R E E' s s') (w : Mach) (i : List (String × ℕ)) (st : Option (List PItem)) (tr : List (ℚ × Ev)) :
    Twin R E E' { s with w := w, interruptibles := i, started := st, trace := tr } { s' with w := w, interruptibles := i, started := st, trace := tr } :=
  ⟨h.one, h.now, rfl, rfl, rfl, h.envArgs, rfl, h.grow, h.events, h.points, h.target, h.activate, h.extra, h.procActivate, h.envActivate, h.queue, h.gap, h.gap', h.stop, h.stop', h.fresh, h.fresh'⟩

theorem twin_lt (h : Twin R E E' s s') (hr : R a b) : a < s.next ↔ b < s'.next := by
  constructor
  · intro ha
    by_contra hb
    obtain ⟨i, rfl⟩ := Nat.exists_eq_add_of_le (not_lt.1 hb)
    have := h.one.right hr (h.grow i)
    omega
  · intro hb
    by_contra ha
    obtain ⟨i, rfl⟩ := Nat.exists_eq_add_of_le (not_lt.1 ha)
    have := h.one.left hr (h.grow i)
    omega

theorem twin_alloc (h : Twin R E E' s s') {x y : SEv} (hx : EvTwin (Corr R (s.alloc x) (s'.alloc y)) x y) : Twin R E E' (s.alloc x) (s'.alloc y) := by
  have hm : ∀ a b, Corr R s s' a b → Corr R (s.alloc x) (s'.alloc y) a b := fun a b hc => hc.mono (Nat.le_succ _) (Nat.le_succ _)
  refine ⟨h.one, h.now, h.w, h.interruptibles, h.started, h.envArgs, h.trace, fun i => ?_, fun a b hr => ?_, fun a b hr => ?_, fun a b hr => hm _ _ (h.target a b hr),
    h.activate.imp fun _ _ hc => ⟨hc.1, hm _ _ hc.2⟩, h.extra.imp fun _ _ hc => ⟨hc.1, hm _ _ hc.2⟩, hm _ _ h.procActivate, hm _ _ h.envActivate, ?_, h.gap, h.gap', fun e he => ?_, fun e he => ?_,
    fun i hi => ⟨(fset_other _ _ (Nat.ne_of_gt hi)).trans (h.fresh i (Nat.le_of_lt hi)).1, (h.fresh i (Nat.le_of_lt hi)).2⟩, fun i hi => ⟨(fset_other _ _ (Nat.ne_of_gt hi)).trans (h.fresh' i (Nat.le_of_lt hi)).1, (h.fresh' i (Nat.le_of_lt hi)).2⟩⟩
  · have := h.grow (i + 1)
    show R (s.next + 1 + i) (s'.next + 1 + i)
    rwa [show s.next + 1 + i = s.next + (i + 1) by omega, show s'.next + 1 + i = s'.next + (i + 1) by omega]
  · show EvTwin _ (fset s.events s.next x a) (fset s'.events s'.next y b)
    by_cases ha : a = s.next
    · subst ha
      have := h.one.left hr (h.grow 0)
      subst this
      rw [fset_same, show fset s'.events s'.next y (s'.next + 0) = y from fset_same _ _ _]
      exact hx
    · have hb : b ≠ s'.next := fun hb => ha (by subst hb; exact h.one.right hr (h.grow 0))
      rw [fset_other _ _ ha, fset_other _ _ hb]
      exact (h.events a b hr).mono hm
  · have := h.points a b hr
    show Option.Rel _ (s.points a) (s'.points b)
    revert this
    generalize s.points a = o; generalize s'.points b = o'
    intro h1
    cases h1 with
    | none => exact .none
    | some h1 => exact .some (h1.mono hm)
  · obtain ⟨Q, Q', h1, h2, h3, h4⟩ := h.queue
    exact ⟨Q, Q', h1, h2, h3.imp fun _ _ hx => hx.mono hm, h4⟩
  · obtain ⟨h1, h2, h3⟩ := h.stop e he
    exact ⟨(fset_other _ _ (Nat.ne_of_lt h3)).trans h1, h2, Nat.lt_succ_of_lt h3⟩
  · obtain ⟨h1, h2, h3⟩ := h.stop' e he
    exact ⟨(fset_other _ _ (Nat.ne_of_lt h3)).trans h1, h2, Nat.lt_succ_of_lt h3⟩

/-- An event changes. -/
theorem twin_event (h : Twin R E E' s s') (hk : Corr R s s' a b) {x y : SEv} (hx : EvTwin (Corr R s s') x y) :
    Twin R E E' { s with events := fset s.events a x } { s' with events := fset s'.events b y } := by
  refine ⟨h.one, h.now, h.w, h.interruptibles, h.started, h.envArgs, h.trace, h.grow, fun c d hcd => ?_, h.points, h.target, h.activate, h.extra, h.procActivate, h.envActivate, h.queue, h.gap, h.gap',
    fun e he => ?_, fun e he => ?_, fun i hi => ⟨(fset_other _ _ (Nat.ne_of_gt (hk.2.1.trans_le hi))).trans (h.fresh i hi).1, (h.fresh i hi).2⟩,
    fun i hi => ⟨(fset_other _ _ (Nat.ne_of_gt (hk.2.2.trans_le hi))).trans (h.fresh' i hi).1, (h.fresh' i hi).2⟩⟩
  · have hr := hk.1
    show EvTwin _ (fset s.events a x c) (fset s'.events b y d)
    by_cases hc : c = a
    · subst hc
      have := h.one.left hr hcd
      subst this
      rw [fset_same, fset_same]; exact hx
    · have hd : d ≠ b := fun hd => hc (by subst hd; exact h.one.right hcd hr)
      rw [fset_other _ _ hc, fset_other _ _ hd]
      exact h.events c d hcd
  · obtain ⟨h1, h2, h3⟩ := h.stop e he
    have : e.ev ≠ a := fun hc => h2 b (hc ▸ hk.1)
    exact ⟨(fset_other _ _ this).trans h1, h2, h3⟩
  · obtain ⟨h1, h2, h3⟩ := h.stop' e he
    have : e.ev ≠ b := fun hc => h2 a (hc ▸ hk.1)
    exact ⟨(fset_other _ _ this).trans h1, h2, h3⟩

/-- A process changes. -/
theorem twin_point (h : Twin R E E' s s') (hk : Corr R s s' a b) {x y : Option Pt} (hx : Option.Rel (PtTwin (Corr R s s')) x y) {c d : ℕ} (ht : Corr R s s' c d) :
    Twin R E E' { s with points := fset s.points a x, target := fset s.target a c } { s' with points := fset s'.points b y, target := fset s'.target b d } := by
  refine ⟨h.one, h.now, h.w, h.interruptibles, h.started, h.envArgs, h.trace, h.grow, h.events, fun i j hij => ?_, fun i j hij => ?_, h.activate, h.extra, h.procActivate, h.envActivate, h.queue, h.gap, h.gap', h.stop, h.stop', ?_, ?_⟩
  · have hr := hk.1
    show Option.Rel _ (fset s.points a x i) (fset s'.points b y j)
    by_cases hc : i = a
    · subst hc
      have := h.one.left hr hij
      subst this
      rw [fset_same, fset_same]; exact hx
    · have hd : j ≠ b := fun hd => hc (by subst hd; exact h.one.right hij hr)
      rw [fset_other _ _ hc, fset_other _ _ hd]
      exact h.points i j hij
  · have hr := hk.1
    show Corr _ _ _ (fset s.target a c i) (fset s'.target b d j)
    by_cases hc : i = a
    · subst hc
      have := h.one.left hr hij
      subst this
      rw [fset_same, fset_same]; exact ht
    · have hd : j ≠ b := fun hd => hc (by subst hd; exact h.one.right hij hr)
      rw [fset_other _ _ hc, fset_other _ _ hd]
      exact h.target i j hij
  · intro i hi
    have hn := Nat.ne_of_gt (hk.2.1.trans_le hi)
    exact ⟨(h.fresh i hi).1, (fset_other _ _ hn).trans (h.fresh i hi).2.1, (fset_other _ _ hn).trans (h.fresh i hi).2.2⟩
  · intro i hi
    have hn := Nat.ne_of_gt (hk.2.2.trans_le hi)
    exact ⟨(h.fresh' i hi).1, (fset_other _ _ hn).trans (h.fresh' i hi).2.1, (fset_other _ _ hn).trans (h.fresh' i hi).2.2⟩

/-- A process ends. -/
theorem twin_endpoint (h : Twin R E E' s s') (hk : Corr R s s' a b) : Twin R E E' { s with points := fset s.points a Option.none } { s' with points := fset s'.points b Option.none } := by
  refine ⟨h.one, h.now, h.w, h.interruptibles, h.started, h.envArgs, h.trace, h.grow, h.events, fun i j hij => ?_, h.target, h.activate, h.extra, h.procActivate, h.envActivate, h.queue, h.gap, h.gap', h.stop, h.stop', 
    fun i hi => ⟨(h.fresh i hi).1, (fset_other _ _ (Nat.ne_of_gt (hk.2.1.trans_le hi))).trans (h.fresh i hi).2.1, (h.fresh i hi).2.2⟩,
    fun i hi => ⟨(h.fresh' i hi).1, (fset_other _ _ (Nat.ne_of_gt (hk.2.2.trans_le hi))).trans (h.fresh' i hi).2.1, (h.fresh' i hi).2.2⟩⟩
  have hr := hk.1
  show Option.Rel _ (fset s.points a Option.none i) (fset s'.points b Option.none j)
  by_cases hc : i = a
  · subst hc
    have := h.one.left hr hij
    subst this
    rw [fset_same, fset_same]; exact .none
  · have hd : j ≠ b := fun hd => hc (by subst hd; exact h.one.right hij hr)
    rw [fset_other _ _ hc, fset_other _ _ hd]
    exact h.points i j hij

theorem insertEntry_twin {K : ℕ → ℕ → Prop} {x y : Entry} (hx : EnTwin K x y) : ∀ {Q Q' : List Entry}, List.Forall₂ (EnTwin K) Q Q' → List.Forall₂ (EnTwin K) (insertEntry x Q) (insertEntry y Q')
  | _, _, .nil => .cons hx .nil
  | u :: r, v :: r', .cons hu hr => by
    have : u.before x = v.before y := by simp only [Entry.before, hu.time, hu.urgent, hx.time, hx.urgent]
    simp only [insertEntry, this]
    split
    · exact .cons hu (insertEntry_twin hx hr)
    · exact .cons hx (.cons hu hr)

theorem twin_schedule (h : Twin R E E' s s') (hc : Corr R s s' a b) (u : Bool) {d : ℚ} (h0 : 0 ≤ d) (hd : u = true → d = 0) : Twin R E E' (s.schedule a u d) (s'.schedule b u d) := by
  refine ⟨h.one, h.now, h.w, h.interruptibles, h.started, h.envArgs, h.trace, h.grow, h.events, h.points, h.target, h.activate, h.extra, h.procActivate, h.envActivate, ?_, h.gap, h.gap', h.stop, h.stop', h.fresh, h.fresh'⟩
  obtain ⟨Q, Q', h1, h2, h3, h4, h5, h6⟩ := h.queue
  have hx : EnTwin (Corr R s s') ⟨s.now + d, u, a⟩ ⟨s'.now + d, u, b⟩ := ⟨by rw [h.now], rfl, hc⟩
  have hu : u = true → s.now + d = s.now := fun hu => by rw [hd hu, add_zero]
  refine ⟨insertEntry ⟨s.now + d, u, a⟩ Q, insertEntry ⟨s'.now + d, u, b⟩ Q', ?_, ?_, insertEntry_twin hx h3, insertEntry_sorted _ _ h4, fun en he => ?_, fun en he hen => ?_⟩
  · show insertEntry _ s.queue = _
    rw [h1]; exact withEntry_comm h.gap hu Q
  · show insertEntry _ s'.queue = _
    rw [h2]; exact withEntry_comm h.gap' (fun hu' => by rw [← h.now]; exact hu hu') Q'
  · rcases (mem_insertEntry _ _ _).1 he with rfl | he
    · show s.now ≤ s.now + d; linarith
    · exact h5 en he
  · rcases (mem_insertEntry _ _ _).1 he with rfl | he
    · exact (hu hen).le
    · exact h6 en he hen

theorem twin_triggered (h : Twin R E E' s s') (hr : R a b) : s.triggered a = s'.triggered b := by
  unfold Sim.triggered; rw [(h.events a b hr).value]

theorem rel_isNone {P : List Callback → List Callback → Prop} {o o' : Option (List Callback)} : Option.Rel P o o' → o.isNone = o'.isNone
  | .none => rfl
  | .some _ => rfl

theorem twin_processed (h : Twin R E E' s s') (hr : R a b) : s.processed a = s'.processed b := rel_isNone (h.events a b hr).callbacks

theorem twin_trigger (h : Twin R E E' s s') (hc : Corr R s s' a b) (v : Except PyErr SVal) : Twin R E E' (s.trigger a v) (s'.trigger b v) := by
  have hx := h.events a b hc.1
  exact twin_schedule (twin_event h hc (x := { s.events a with value := some v }) (y := { s'.events b with value := some v }) ⟨rfl, hx.defused, hx.callbacks⟩) hc false le_rfl (fun _ => rfl)

theorem twin_addCallback (h : Twin R E E' s s') (hc : Corr R s s' a b) {c d : Callback} (hcd : CbTwin (Corr R s s') c d) : Twin R E E' (s.addCallback a c) (s'.addCallback b d) := by
  have hx := h.events a b hc.1
  refine twin_event h hc ⟨hx.value, hx.defused, ?_⟩
  have := hx.callbacks
  show Option.Rel _ ((s.events a).callbacks.map (· ++ [c])) ((s'.events b).callbacks.map (· ++ [d]))
  revert this
  generalize (s.events a).callbacks = o; generalize (s'.events b).callbacks = o'
  intro h1
  cases h1 with
  | none => exact .none
  | some h1 => exact .some (List.rel_append h1 (.cons hcd .nil))

theorem cbTwin_eq (ho : OneOne R) {x y x' y' : Callback} (h : CbTwin (Corr R s s') x y) (h' : CbTwin (Corr R s s') x' y') : x = x' ↔ y = y' := by
  have hl : ∀ {a b a' b'}, Corr R s s' a b → Corr R s s' a' b' → (a = a' ↔ b = b') := fun h1 h2 =>
    ⟨fun e => by subst e; exact ho.left h1.1 h2.1, fun e => by subst e; exact ho.right h1.1 h2.1⟩
  cases h with
  | resume h1 => cases h' with
    | resume h2 => simp only [Callback.resume.injEq, hl h1 h2]
    | _ => exact ⟨(fun hx => by cases hx), (fun hx => by cases hx)⟩
  | interrupt h1 => cases h' with
    | interrupt h2 => simp only [Callback.interrupt.injEq, hl h1 h2]
    | _ => exact ⟨(fun hx => by cases hx), (fun hx => by cases hx)⟩
  | check h1 => cases h' with
    | check h2 => simp only [Callback.check.injEq, hl h1 h2]
    | _ => exact ⟨(fun hx => by cases hx), (fun hx => by cases hx)⟩
  | build h1 h2 h3 => cases h' with
    | build h4 h5 h6 => simp only [Callback.build.injEq, hl h1 h4, hl h2 h5, hl h3 h6]
    | _ => exact ⟨(fun hx => by cases hx), (fun hx => by cases hx)⟩

theorem erase_twin (ho : OneOne R) {c d : Callback} (hcd : CbTwin (Corr R s s') c d) : ∀ {l l' : List Callback}, List.Forall₂ (CbTwin (Corr R s s')) l l' → List.Forall₂ (CbTwin (Corr R s s')) (l.erase c) (l'.erase d)
  | _, _, .nil => .nil
  | x :: r, y :: r', .cons hx hr => by
    rw [List.erase_cons, List.erase_cons]
    have := cbTwin_eq ho hx hcd
    by_cases hxc : x = c
    · rw [if_pos (by simpa using hxc), if_pos (by simpa using this.1 hxc)]; exact hr
    · rw [if_neg (by simpa using hxc), if_neg (by simpa using fun h => hxc (this.2 h))]
      exact .cons hx (erase_twin ho hcd hr)

theorem twin_dropCallback (h : Twin R E E' s s') (hc : Corr R s s' a b) {c d : Callback} (hcd : CbTwin (Corr R s s') c d) : Twin R E E' (s.dropCallback a c) (s'.dropCallback b d) := by
  have hx := h.events a b hc.1
  refine twin_event h hc ⟨hx.value, hx.defused, ?_⟩
  have := hx.callbacks
  show Option.Rel _ ((s.events a).callbacks.map (·.erase c)) ((s'.events b).callbacks.map (·.erase d))
  revert this
  generalize (s.events a).callbacks = o; generalize (s'.events b).callbacks = o'
  intro h1
  cases h1 with
  | none => exact .none
  | some h1 => exact .some (erase_twin h.one hcd h1)

theorem twin_defuse (h : Twin R E E' s s') (hc : Corr R s s' a b) : Twin R E E' (s.defuse a) (s'.defuse b) := by
  have hx := h.events a b hc.1
  exact twin_event h hc ⟨hx.value, rfl, hx.callbacks⟩

end Verif
