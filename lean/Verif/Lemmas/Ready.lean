import Verif.Lemmas.Poised
/-! # Modules and their interruptions: the code of processes -/
namespace Verif
open Verif.Spec

/-! ## Events that activate processes -/

/-- An existing event that interrupts nobody and is not urgent. -/
def Mellow (s : Sim) (a : ℕ) : Prop := a < s.next ∧ (∀ q, .interrupt q ∉ s.cbs a) ∧ ∀ en ∈ s.queue, en.ev = a → en.urgent = false

/-- The events that activate processes. -/
structure Placed (s : Sim) : Prop where
  act : ∀ n a, (n, a) ∈ s.activate → Mellow s a
  proc : Mellow s s.procActivate
  env : Mellow s s.envActivate

/-- What the code of processes does. -/
structure Pace (s s' : Sim) : Prop where
  now : s'.now = s.now
  next : s.next ≤ s'.next
  points : ∀ p, p < s.next → s'.points p = s.points p
  target : ∀ p, p < s.next → s'.target p = s.target p
  extra : s'.extra = s.extra
  trig : ∀ x, s.triggered x = true → s'.triggered x = true
  calm : ∀ x q, x < s.next → .interrupt q ∈ s'.cbs x → .interrupt q ∈ s.cbs x
  newq : ∀ en ∈ s'.queue, en ∈ s.queue ∨ s.next ≤ en.ev ∨ en.urgent = false

variable {D : String → ℕ} {X : ℕ → Prop} {s s' : Sim} {p : ℕ} {A B : Type}

theorem pace_refl (s : Sim) : Pace s s := ⟨rfl, le_rfl, fun _ _ => rfl, fun _ _ => rfl, rfl, fun _ h => h, fun _ _ _ h => h, fun _ h => .inl h⟩
theorem pace_trans (a b c : Sim) (h1 : Pace a b) (h2 : Pace b c) : Pace a c :=
  ⟨h2.now.trans h1.now, h1.next.trans h2.next, fun p hp => (h2.points p (hp.trans_le h1.next)).trans (h1.points p hp),
    fun p hp => (h2.target p (hp.trans_le h1.next)).trans (h1.target p hp), h2.extra.trans h1.extra, fun x h => h2.trig x (h1.trig x h),
    fun x q hx h => h1.calm x q hx (h2.calm x q (hx.trans_le h1.next) h), fun en hen => by
      rcases h2.newq en hen with h | h | h
      · exact h1.newq en h
      · exact .inr (.inl (h1.next.trans h))
      · exact .inr (.inr h)⟩

theorem mellow_pace {a : ℕ} (hp : Pace s s') (h : Mellow s a) : Mellow s' a := by
  refine ⟨h.1.trans_le hp.next, fun q hq => h.2.1 q (hp.calm a q h.1 hq), fun en hen he => ?_⟩
  rcases hp.newq en hen with h1 | h1 | h1
  · exact h.2.2 en h1 he
  · have := h.1
    omega
  · exact h1

theorem placed_pace (hp : Pace s s') (h : Placed s) (ha : ∀ n a, (n, a) ∈ s'.activate → (n, a) ∈ s.activate ∨ Mellow s' a)
    (hpr : s'.procActivate = s.procActivate ∨ Mellow s' s'.procActivate) (he : s'.envActivate = s.envActivate ∨ Mellow s' s'.envActivate) : Placed s' := by
  refine ⟨fun n a hm => (ha n a hm).elim (fun h1 => mellow_pace hp (h.act n a h1)) id, ?_, ?_⟩
  · rcases hpr with h1 | h1
    · rw [h1]; exact mellow_pace hp h.proc
    · exact h1
  · rcases he with h1 | h1
    · rw [h1]; exact mellow_pace hp h.env
    · exact h1

theorem pace_aside (h : Aside s s') : Pace s s' := by
  obtain ⟨h0, h1, h2, h3, h4, h5, h6, _⟩ := h
  exact ⟨h0, h1.ge, fun _ _ => by rw [h2], fun _ _ => by rw [h3], h6, fun x hx => by unfold Sim.triggered at *; rw [h4]; exact hx,
    fun x q _ hm => by unfold Sim.cbs at *; rw [h4] at hm; exact hm, fun en hen => .inl (h5 ▸ hen)⟩

theorem pace_alloc (s : Sim) (E : SEv) (ht : s.triggered s.next = false) : Pace s (s.alloc E) :=
  ⟨rfl, Nat.le_succ _, fun _ _ => rfl, fun _ _ => rfl, rfl, fun x hx => by
    have hne : x ≠ s.next := fun h => by rw [h, ht] at hx; cases hx
    unfold Sim.triggered; rw [events_alloc_old hne]; exact hx, fun x q hx hm => by rwa [cbs_alloc_old (Nat.ne_of_lt hx)] at hm, fun _ h => .inl h⟩

theorem pace_schedule {ev : ℕ} {u : Bool} {d : ℚ} (h : Pace s s') (hu : u = true → s.next ≤ ev) : Pace s (s'.schedule ev u d) :=
  ⟨h.now, h.next, h.points, h.target, h.extra, h.trig, h.calm, fun en hen => by
    rcases (mem_insertEntry _ _ _).1 hen with rfl | h1
    · cases u
      · exact .inr (.inr rfl)
      · exact .inr (.inl (hu rfl))
    · exact h.newq en h1⟩

theorem pace_trigger (s : Sim) (ev : ℕ) (v : Except PyErr SVal) : Pace s (s.trigger ev v) := by
  refine pace_schedule (s' := { s with events := fset s.events ev { s.events ev with value := some v } })
    ⟨rfl, le_rfl, fun _ _ => rfl, fun _ _ => rfl, rfl, fun x hx => ?_, fun x q _ hm => ?_, fun _ h => .inl h⟩ (by simp)
  · show (fset s.events ev _ x).value.isSome = true
    by_cases he : x = ev
    · subst he; rw [fset_same]; rfl
    · rw [fset_other _ _ he]; exact hx
  · exact (cbs_trigger s ev v x) ▸ hm

theorem pace_check (s : Sim) (ev c : ℕ) : Pace s (s.addCallback ev (.check c)) :=
  ⟨rfl, le_rfl, fun _ _ => rfl, fun _ _ => rfl, rfl, fun x hx => by unfold Sim.triggered; rw [value_addCallback]; exact hx,
    fun x q _ hm => (mem_addCallback hm).elim id (fun h => by cases h.1), fun _ h => .inl h⟩

/-! ## Code -/

/-- Both invariants; and events that do not exist have not been triggered. -/
structure Ready (D : String → ℕ) (X : ℕ → Prop) (s : Sim) : Prop where
  poised : Poised D X s
  placed : Placed s
  blank : ∀ x, s.next ≤ x → s.triggered x = false ∧ s.points x = Option.none

/-- `Does` for these invariants. -/
abbrev Readies (X : ℕ → Prop) (m : SimM A) (s : Sim) (Q : Sim → A → Prop) : Prop := Does (Ready (fun _ => 0) X) Pace m s Q

theorem readies_bind {m : SimM A} {f : A → SimM B} {Q : Sim → A → Prop} {Q' : Sim → B → Prop} (hm : Readies X m s Q)
    (hf : ∀ a s', Ready (fun _ => 0) X s' → Pace s s' → Q s' a → Readies X (f a) s' Q') : Readies X (m >>= f) s Q' := does_bind pace_trans hm hf
theorem readies_pure {a : A} {Q : Sim → A → Prop} (h : Ready (fun _ => 0) X s) (hq : Q s a) : Readies X (pure a) s Q := does_pure pace_refl h hq
theorem readies_throw {e : PyErr} {Q : Sim → A → Prop} (h : Ready (fun _ => 0) X s) : Readies X (SimM.throw e : SimM A) s Q := does_throw pace_refl h
theorem readies_get {f : Sim → A} (h : Ready (fun _ => 0) X s) : Readies X (SimM.get f) s (fun s' a => s' = s ∧ a = f s) := does_get pace_refl h
theorem readies_ite {b : Prop} [Decidable b] {m n : SimM A} {Q : Sim → A → Prop} (hm : b → Readies X m s Q) (hn : ¬ b → Readies X n s Q) :
    Readies X (if b then m else n) s Q := by
  split
  · exact hm ‹_›
  · exact hn ‹_›

theorem poised_mono {D' : String → ℕ} (h : Poised D X s) (hd : ∀ n, D' n ≤ D n) : Poised D' X s :=
  { h with busy := fun e pt n h1 h2 h3 => ⟨(h.busy e pt n h1 h2 h3).1, (Nat.add_le_add_left (hd n) _).trans (h.busy e pt n h1 h2 h3).2⟩ }

theorem ready_mono {D' : String → ℕ} (h : Ready D X s) (hd : ∀ n, D' n ≤ D n) : Ready D' X s := ⟨poised_mono h.poised hd, h.placed, h.blank⟩

/-- Parts of the state that remain as they are. -/
structure Same (s s' : Sim) : Prop where
  started : s'.startedList = s.startedList
  w : s'.w = s.w
  activate : s'.activate = s.activate
  strikes : ∀ p, s'.strikes p = s.strikes p

theorem same_refl (s : Sim) : Same s s := ⟨rfl, rfl, rfl, fun _ => rfl⟩
theorem same_trans {a b c : Sim} (h1 : Same a b) (h2 : Same b c) : Same a c :=
  ⟨h2.started.trans h1.started, h2.w.trans h1.w, h2.activate.trans h1.activate, fun p => (h2.strikes p).trans (h1.strikes p)⟩

/-- An event nobody waits for, which activates nobody. -/
structure Unheeded (s : Sim) (a : ℕ) : Prop where
  plain : Mellow s a
  free : ∀ q, .resume q ∉ s.cbs a
  act : ∀ n, (n, a) ∉ s.activate
  proc : a ≠ s.procActivate

theorem ready_aside (h : Ready D X s) (ha : Aside s s') (hw : ∀ e pt n, s.points e = some pt → ¬ X e → pt.working = some n → s.strikes e + D n ≤ orders n s.startedList → s.strikes e + D n ≤ orders n s'.startedList) :
    Ready D X s' := by
  have hp := pace_aside ha
  have hpo := poised_aside h.poised ha hw
  obtain ⟨h0, h1, h2, h3, h4, h5, h6, h7, h8, h9⟩ := ha
  exact ⟨hpo, placed_pace hp h.placed (fun n a hm => .inl (h7 ▸ hm)) (.inl h8) (.inl h9), fun x hx => by
    rw [h2]; unfold Sim.triggered; rw [h4]; exact h.blank x (h1 ▸ hx)⟩

theorem ready_alloc {v : Option (Except PyErr SVal)} {d : Bool} {l : List Callback} (h : Ready D X s)
    (hi : ∀ p, .interrupt p ∈ l → l = [.interrupt p] ∧ v.isSome ∧ Soft s p ∧ p + 1 < s.next) (hr : ∀ p q, .resume p ∈ l → .resume q ∈ l → p = q) (hx : ∀ p, .resume p ∈ l → ¬ X p) :
    Ready D X (s.alloc ⟨v, d, some l⟩) := by
  refine ⟨poised_alloc h.poised hi hr hx, placed_pace (pace_alloc s _ (h.blank _ le_rfl).1) h.placed (fun _ _ h => .inl h) (.inl rfl) (.inl rfl), fun x hx => ?_⟩
  have hx : s.next + 1 ≤ x := hx
  refine ⟨?_, (h.blank x (by omega)).2⟩
  unfold Sim.triggered
  rw [events_alloc_old (by omega)]; exact (h.blank x (by omega)).1

theorem unheeded_new (h : Ready D X s) {v : Option (Except PyErr SVal)} {d : Bool} {l : List Callback} (hi : ∀ q, .interrupt q ∉ l) (hr : ∀ q, .resume q ∉ l) : Unheeded (s.alloc ⟨v, d, some l⟩) s.next := by
  refine ⟨⟨Nat.lt_succ_self _, fun q => ?_, fun en hen he => ?_⟩, fun q => ?_, fun n hn => ?_, fun he => ?_⟩
  · rw [cbs_alloc_new]; exact hi q
  · exact absurd (h.poised.known en hen) (by omega)
  · rw [cbs_alloc_new]; exact hr q
  · exact absurd (h.placed.act n _ hn).1 (lt_irrefl _)
  · exact absurd h.placed.proc.1 (by rw [show s.procActivate = s.next from he.symm]; exact lt_irrefl _)

theorem unheeded_schedule {ev a : ℕ} {d : ℚ} (h : Unheeded s a) : Unheeded (s.schedule ev false d) a :=
  ⟨⟨h.plain.1, h.plain.2.1, fun en hen he => by
    rcases (mem_insertEntry _ _ _).1 hen with rfl | h1
    · rfl
    · exact h.plain.2.2 en h1 he⟩, h.free, h.act, h.proc⟩

theorem strikes_schedule {ev : ℕ} {u : Bool} {d : ℚ} (h : .interrupt p ∉ s.cbs ev) : (s.schedule ev u d).strikes p = s.strikes p := by
  show (insertEntry _ s.queue).countP _ = _
  rw [countP_insertEntry]
  have : ¬ (.interrupt p ∈ (s.schedule ev u d).cbs ev) := h
  simp only [decide_eq_true_eq, if_neg this]
  rfl

theorem readies_newEvent (h : Ready (fun _ => 0) X s) : Readies X newEvent s (fun s' a => Unheeded s' a ∧ Same s s' ∧ s'.points = s.points) := by
  refine ⟨ready_alloc h (by simp) (by simp) (by simp), pace_alloc _ _ (h.blank _ le_rfl).1, fun a ha => ?_⟩
  obtain rfl : s.next = a := by simpa [newEvent] using ha
  exact ⟨unheeded_new h (by simp) (by simp), ⟨rfl, rfl, rfl, strikes_alloc h.poised _⟩, rfl⟩

theorem ready_trigger {ev : ℕ} {v : Except PyErr SVal} (h : Ready D X s) (hk : ev < s.next) (ht : s.triggered ev = false) : Ready D X (s.trigger ev v) := by
  refine ⟨poised_trigger h.poised hk (calm_untriggered h.poised ht), placed_pace (pace_trigger s ev v) h.placed (fun _ _ h => .inl h) (.inl rfl) (.inl rfl), fun x hx => ⟨?_, (h.blank x hx).2⟩⟩
  show (fset s.events ev _ x).value.isSome = false
  have hx : s.next ≤ x := hx
  rw [fset_other _ _ (by omega)]; exact (h.blank x hx).1

theorem triggered_trigger (s : Sim) (ev : ℕ) (v : Except PyErr SVal) : (s.trigger ev v).triggered ev = true := by
  show (fset s.events ev _ ev).value.isSome = true
  rw [fset_same]; rfl

theorem same_trigger {ev : ℕ} {v : Except PyErr SVal} (h : Poised D X s) (ht : s.triggered ev = false) : Same s (s.trigger ev v) := by
  have hi : ∀ p, .interrupt p ∉ s.cbs ev := fun p hm => by rw [(h.intr ev p hm).2.1] at ht; cases ht
  refine ⟨rfl, rfl, rfl, fun p => ?_⟩
  have hc := cbs_trigger s ev v
  refine (strikes_schedule (s := { s with events := fset s.events ev { s.events ev with value := some v } }) ?_).trans (strikes_congr rfl fun en _ => ?_)
  · exact fun hm => hi p (hc ev ▸ hm)
  · exact ⟨fun hm => hc en.ev ▸ hm, fun hm => by
      have : .interrupt p ∈ (s.trigger ev v).cbs en.ev := by rw [hc]; exact hm
      exact this⟩

theorem readies_succeed {ev : ℕ} (h : Ready (fun _ => 0) X s) (hk : ev < s.next) : Readies X (succeed ev) s (fun s' _ => Same s s' ∧ s'.points = s.points ∧ s'.triggered ev = true) := by
  unfold Readies Does succeed
  split
  · exact ⟨h, pace_refl _, by simp⟩
  · rename_i ht
    have ht : s.triggered ev = false := by simpa using ht
    exact ⟨ready_trigger h hk ht, pace_trigger _ _ _, fun _ _ => ⟨same_trigger h.poised ht, rfl, triggered_trigger _ _ _⟩⟩

theorem readies_timeout {d : ℚ} (h : Ready (fun _ => 0) X s) : Readies X (timeout d) s (fun s' a => Unheeded s' a ∧ Same s s' ∧ s'.points = s.points) := by
  unfold Readies Does timeout
  split
  · exact ⟨h, pace_refl _, by simp⟩
  · have h1 : Ready (fun _ => 0) X (s.alloc ⟨some (.ok .nothing), false, some []⟩) := ready_alloc h (by simp) (by simp) (by simp)
    have hf := unheeded_new h (v := some (.ok .nothing)) (d := false) (l := []) (by simp) (by simp)
    have hp : Pace s ((s.alloc ⟨some (.ok .nothing), false, some []⟩).schedule s.next false d) := pace_schedule (pace_alloc _ _ (h.blank _ le_rfl).1) (by simp)
    refine ⟨⟨?_, placed_pace hp h.placed (fun _ _ h => .inl h) (.inl rfl) (.inl rfl), h1.blank⟩, hp, fun a ha => ?_⟩
    · exact poised_insert h1.poised (Nat.lt_succ_self _) (by simp) (fun p hm => absurd hm (hf.plain.2.1 p)) (by simp) (fun p hm => absurd hm (hf.plain.2.1 p))
    · obtain rfl : s.next = a := by simpa using ha
      exact ⟨unheeded_schedule hf, ⟨rfl, rfl, rfl, fun p => (strikes_schedule (hf.plain.2.1 p)).trans (strikes_alloc h.poised _ p)⟩, rfl⟩

theorem readies_process {pt : Pt} (h : Ready (fun _ => 0) X s) (hx : ∀ p, X p → p < s.next) (hn : pt.isNew = true) (hr : pt.ref = Option.none) (hm : pt.module = Option.none) (hg : pt.gains) :
    Readies X (process pt) s (fun s' a => Unheeded s' a ∧ Same s s' ∧ s.next ≤ a ∧ (pt.helper = true → Helps s' a)) := by
  unfold Readies Does process
  dsimp only
  set s1 := s.alloc ⟨Option.none, false, some []⟩ with hs1
  have h1 : Ready (fun _ => 0) X s1 := ready_alloc h (by simp) (by simp) (by simp)
  have p1 : Pace s s1 := pace_alloc _ _ (h.blank _ le_rfl).1
  have hxn : ¬ X s.next := fun hc => lt_irrefl _ (hx _ hc)
  set sa := s1.alloc ⟨some (.ok .nothing), false, some [.resume s.next]⟩ with hsa
  have ha : Ready (fun _ => 0) X sa := ready_alloc h1 (by simp) (by simp) (by simpa using hxn)
  have pa : Pace s sa := pace_trans _ _ _ p1 (pace_alloc _ _ (h1.blank _ le_rfl).1)
  have hn1 : s1.next = s.next + 1 := rfl
  have hnotint : ∀ q, .interrupt q ∉ sa.cbs s1.next := fun q => by rw [hsa, cbs_alloc_new]; simp
  have hnp : sa.points s.next = Option.none := (h.blank _ le_rfl).2
  set s2 := sa.schedule s1.next true 0 with hs2
  have p2 : Pace s s2 := pace_schedule pa (fun _ => by omega)
  have h2 : Poised (fun _ => 0) X s2 := by
    refine poised_insert ha.poised (Nat.lt_succ_self _) (fun _ x hx => h1.poised.known x hx) (fun p hm => absurd hm (hnotint p)) (fun _ p hm pt hp => ?_) (fun p hm => absurd hm (hnotint p))
    rw [hsa, cbs_alloc_new] at hm
    have : p = s.next := by simpa using hm
    rw [this, hnp] at hp; cases hp
  have hcb : ∀ ev cb, cb ∈ s2.cbs ev → cb ∈ s.cbs ev ∨ (cb = .resume s.next ∧ ev = s1.next) := fun ev cb hm => by
    change cb ∈ sa.cbs ev at hm
    by_cases he : ev = s1.next
    · subst he; rw [hsa, cbs_alloc_new] at hm; exact .inr ⟨by simpa using hm, rfl⟩
    · rw [hsa, cbs_alloc_old he, hs1] at hm
      by_cases he' : ev = s.next
      · subst he'; rw [cbs_alloc_new] at hm; simp at hm
      · rw [cbs_alloc_old he'] at hm; exact .inl hm
  set s3 : Sim := { s2 with points := fset s2.points s.next (some pt), target := fset s2.target s.next s1.next } with hs3
  have hnext : s2.next = s.next + 2 := rfl
  have h3 : Poised (fun _ => 0) X s3 := by
    refine poised_point h2 hnp hxn (by omega) hn hr ⟨⟨s2.now + 0, true, s1.next⟩, (mem_insertEntry _ _ _).2 (.inl rfl), rfl, rfl, (add_zero _).le⟩ (fun ev hm => ?_) (fun n hm => ?_) (fun q pt' hq he => ?_) (fun n hm' => ?_) hg (fun n a ha hm => ?_)
    · rcases hcb ev _ hm with hm | ⟨hm, _⟩
      · exact absurd (h.poised.intr ev _ hm).2.2.2.1 (by omega)
      · cases hm
    · exact absurd (h.poised.extra n _ hm).1 (by omega)
    · exact absurd (h.poised.refs q pt' _ hq he).1 (by omega)
    · rw [hm] at hm'; cases hm'
    · rcases hcb a _ hm with hm | ⟨_, he⟩
      · have := (h.poised.act n a ha).2.2 _ hm
        rw [(h.blank _ le_rfl).2] at this; cases this
      · exact absurd (h.placed.act n a ha).1 (by omega)
  have p3 : Pace s s3 := ⟨p2.now, p2.next, fun q hq => (fset_other _ _ (Nat.ne_of_lt hq)).trans (p2.points q hq), fun q hq => (fset_other _ _ (Nat.ne_of_lt hq)).trans (p2.target q hq), p2.extra, p2.trig, p2.calm, p2.newq⟩
  have b3 : ∀ x, s3.next ≤ x → s3.triggered x = false ∧ s3.points x = Option.none := fun x hx => by
    have hx : s2.next ≤ x := hx
    have hb := ha.blank x hx
    exact ⟨hb.1, (fset_other _ _ (by omega)).trans hb.2⟩
  refine ⟨⟨h3, placed_pace p3 h.placed (fun _ _ h => .inl h) (.inl rfl) (.inl rfl), b3⟩, p3, fun a ha' => ?_⟩
  obtain rfl : s.next = a := by simpa using ha'
  refine ⟨⟨⟨by show _ < s2.next; omega, fun q hm => ?_, fun en hen he => ?_⟩, fun q hm => ?_, fun n hm => ?_, fun he => ?_⟩, ⟨rfl, rfl, rfl, fun q => ?_⟩, le_rfl, fun hh => ⟨by show _ < s2.next; omega, fun pt' hq => ?_⟩⟩
  · rcases hcb _ _ hm with hm | ⟨hm, _⟩
    · exact absurd (lt_of_mem h.poised hm) (lt_irrefl _)
    · cases hm
  · rcases (mem_insertEntry _ _ _).1 hen with rfl | h1
    · exact absurd (show s1.next = s.next from he) (by omega)
    · exact absurd (h.poised.known en h1) (by omega)
  · rcases hcb _ _ hm with hm | ⟨_, he⟩
    · exact absurd (lt_of_mem h.poised hm) (lt_irrefl _)
    · omega
  · exact absurd (h.placed.act n _ hm).1 (lt_irrefl _)
  · exact absurd h.placed.proc.1 (by rw [show s.procActivate = s.next from he.symm]; exact lt_irrefl _)
  · exact (strikes_schedule (hnotint q)).trans ((strikes_alloc h1.poised _ q).trans (strikes_alloc h.poised _ q))
  · change fset _ _ _ _ = _ at hq
    rw [fset_same] at hq; cases hq; exact hh

/-- An interruption: those that may happen are set aside in `D`. -/
theorem ready_interrupt {D' : String → ℕ} {q : ℕ} (h : Ready D X s) (hs : Soft s q) (hd : ∀ n, D' n ≤ D n)
    (hb : ¬ X q → (∀ n, s.points q = some (.extraIdle n) → s.triggered (s.target q) = true) ∧ (∀ n, s.points q ≠ some (.extraNew n)) ∧
      ∀ pt n, s.points q = some pt → pt.working = some n → s.strikes q + 1 + D' n ≤ orders n s.startedList) :
    Ready D' X (interruptProcess q s).1 ∧ Pace s (interruptProcess q s).1 ∧ (interruptProcess q s).1.points = s.points ∧ (interruptProcess q s).1.startedList = s.startedList ∧
      (interruptProcess q s).1.activate = s.activate ∧ (∀ x, x ≠ q → (interruptProcess q s).1.strikes x = s.strikes x) := by
  unfold interruptProcess
  split
  · exact ⟨ready_mono h hd, pace_refl _, rfl, rfl, rfl, fun _ _ => rfl⟩
  · have h1 : Ready D' X (s.alloc ⟨some (.error .interrupt), true, some [.interrupt q]⟩) := ready_mono (ready_alloc h (by simpa using ⟨hs, hs.1⟩) (by simp) (by simp)) hd
    have hp : Pace s ((s.alloc ⟨some (.error .interrupt), true, some [.interrupt q]⟩).schedule s.next true 0) := pace_schedule (pace_alloc _ _ (h.blank _ le_rfl).1) (fun _ => le_rfl)
    have hc : (s.alloc ⟨some (.error .interrupt), true, some [.interrupt q]⟩).cbs s.next = [.interrupt q] := cbs_alloc_new
    have hst := strikes_alloc h.poised ⟨some (.error .interrupt), true, some [.interrupt q]⟩
    refine ⟨⟨?_, placed_pace hp h.placed (fun _ _ h => .inl h) (.inl rfl) (.inl rfl), h1.blank⟩, hp, rfl, rfl, rfl, fun x hx => ?_⟩
    · refine poised_insert h1.poised (Nat.lt_succ_self _) (fun _ x hx => h.poised.known x hx) (fun _ _ => ⟨rfl, rfl⟩) (fun _ p hm => ?_) (fun p hm hx => ?_)
      · rw [hc] at hm; simp at hm
      · rw [hc] at hm
        obtain rfl : p = q := by simpa using hm
        obtain ⟨a1, a2, a3⟩ := hb hx
        rw [hst]
        refine ⟨fun n hn => ?_, a2, a3⟩
        have ht := a1 n hn
        have : s.target p ≠ s.next := fun he => by rw [he, (h.blank _ le_rfl).1] at ht; cases ht
        unfold Sim.triggered
        show ((s.alloc _).events (s.target p)).value.isSome = true
        rw [events_alloc_old this]; exact ht
    · exact (strikes_schedule (by rw [hc]; simpa using hx)).trans (hst x)

theorem ready_check {ev c : ℕ} (h : Ready D X s) (hp : Mellow s ev) : Ready D X (s.addCallback ev (.check c)) := by
  refine ⟨poised_check h.poised hp.1 hp.2.1, placed_pace (pace_check s ev c) h.placed (fun _ _ h => .inl h) (.inl rfl) (.inl rfl), fun x hx => ⟨?_, (h.blank x hx).2⟩⟩
  unfold Sim.triggered
  rw [value_addCallback]; exact (h.blank x hx).1

theorem readies_anyOf {a b : ℕ} (h : Ready (fun _ => 0) X s) (ha : Mellow s a) (hb : Mellow s b) : Readies X (anyOf a b) s (fun s' c => Unheeded s' c ∧ Same s s' ∧ s'.points = s.points) := by
  unfold Readies Does anyOf
  dsimp only
  set s1 := s.alloc ⟨Option.none, false, some [.build s.next a b]⟩ with hs1
  have h1 : Ready (fun _ => 0) X s1 := ready_alloc h (by simp) (by simp) (by simp)
  have g1 : Pace s s1 := pace_alloc _ _ (h.blank _ le_rfl).1
  have f1 : Unheeded s1 s.next := unheeded_new h (by simp) (by simp)
  have key : ∀ (t : Sim) (ev : ℕ), Ready (fun _ => 0) X t → Mellow t ev → Unheeded t s.next →
      Ready (fun _ => 0) X (if t.processed ev then (if t.triggered s.next then t else t.trigger s.next (.ok .nothing)) else t.addCallback ev (.check s.next)) ∧
      Pace t (if t.processed ev then (if t.triggered s.next then t else t.trigger s.next (.ok .nothing)) else t.addCallback ev (.check s.next)) ∧
      Unheeded (if t.processed ev then (if t.triggered s.next then t else t.trigger s.next (.ok .nothing)) else t.addCallback ev (.check s.next)) s.next ∧
      Same t (if t.processed ev then (if t.triggered s.next then t else t.trigger s.next (.ok .nothing)) else t.addCallback ev (.check s.next)) ∧
      (if t.processed ev then (if t.triggered s.next then t else t.trigger s.next (.ok .nothing)) else t.addCallback ev (.check s.next)).points = t.points := by
    intro t ev ht he ho
    split
    · split
      · exact ⟨ht, pace_refl _, ho, same_refl _, rfl⟩
      · rename_i hn
        have hn : t.triggered s.next = false := by simpa using hn
        have hp := pace_trigger t s.next (.ok .nothing)
        exact ⟨ready_trigger ht ho.plain.1 hn, hp, ⟨mellow_pace hp ho.plain, fun q hq => ho.free q (by rwa [cbs_trigger] at hq), ho.act, ho.proc⟩, same_trigger ht.poised hn, rfl⟩
    · have hp := pace_check t ev s.next
      exact ⟨ready_check ht he, hp, ⟨mellow_pace hp ho.plain, fun q hq => (mem_addCallback hq).elim (ho.free q) (fun h => by cases h.1), ho.act, ho.proc⟩,
        ⟨rfl, rfl, rfl, fun p => strikes_congr rfl fun en _ => ⟨fun hm => (mem_addCallback hm).elim id (fun h => by cases h.1), mem_addCallback_old⟩⟩, rfl⟩
  obtain ⟨h2, g2, f2, e2, q2⟩ := key s1 a h1 (mellow_pace g1 ha) f1
  have g12 := pace_trans _ _ _ g1 g2
  obtain ⟨h3, g3, f3, e3, q3⟩ := key _ b h2 (mellow_pace g12 hb) f2
  refine ⟨h3, pace_trans _ _ _ g12 g3, fun x hx => ?_⟩
  obtain rfl : s.next = x := by simpa using hx
  exact ⟨f3, same_trans (same_trans (b := s1) ⟨rfl, rfl, rfl, strikes_alloc h.poised _⟩ e2) e3, q3.trans q2⟩

end Verif
