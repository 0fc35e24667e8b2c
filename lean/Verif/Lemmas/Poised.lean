import Verif.Lemmas.Orders
import Verif.Lemmas.Tame
/-! # Modules and their interruptions -/
namespace Verif
open Verif.Spec

/-! ## The invariant -/

/-- Processes that have not been started. -/
def Pt.isNew : Pt → Bool
  | .procNew | .extraNew _ | .localNew _ _ | .envNew | .envProcNew _ => true
  | _ => false

/-- The name of the module, for `__extraprocessGenerator__`. -/
def Pt.module : Pt → Option String
  | .extraNew n | .extraIdle n | .extraMain n _ | .extraCont n => some n
  | _ => Option.none

/-- The same for modules that work on a request. -/
def Pt.working : Pt → Option String
  | .extraMain n _ | .extraCont n => some n
  | _ => Option.none

/-- `__localprocess__` and `__envprocess__`. -/
def Pt.helper : Pt → Bool
  | .localNew _ _ | .localWait _ _ _ | .envProcNew _ | .envProc _ => true
  | _ => false

/-- The generators of processes take no requests away. -/
def Pt.gains : Pt → Prop
  | .localNew _ g => ∀ w, (g w).Moves Gains w
  | .localWait _ _ k => ∀ w, (k w).Moves Gains w
  | .envWait _ k => ∀ w, (k w).Moves Gains w
  | _ => True

/-- The number of interruptions of a process in the schedule. -/
def Sim.strikes (s : Sim) (p : ℕ) : ℕ := s.queue.countP (fun en => decide (.interrupt p ∈ s.cbs en.ev))

/-- A process that may be interrupted. -/
def Soft (s : Sim) (p : ℕ) : Prop := p + 1 < s.next ∧ ∀ pt, s.points p = some pt → pt.helper = true ∨ pt.module.isSome = true

/-- A process that works for another one. -/
def Helps (s : Sim) (p : ℕ) : Prop := p + 1 < s.next ∧ ∀ pt, s.points p = some pt → pt.helper = true

/-- Urgent events with the same time are taken in the order of their numbers. -/
def Entry.later (a b : Entry) : Prop := a.urgent = true → b.urgent = true → a.time = b.time → a.ev < b.ev

/-- A module with a request is active, and there is a request for each of its interruptions; of the requests `D` are set aside. A module without
request waits to be activated; if it is interrupted, it has been activated. All this holds for processes other than those in `X`, which are running. -/
structure Poised (D : String → ℕ) (X : ℕ → Prop) (s : Sim) : Prop where
  sorted : s.queue.Pairwise Entry.upTo
  ord : s.queue.Pairwise Entry.later
  known : ∀ en ∈ s.queue, en.ev < s.next
  born : ∀ p pt, s.points p = some pt → p + 1 < s.next
  unborn : ∀ ev, s.next ≤ ev → s.cbs ev = []
  run : ∀ p, X p → p + 1 < s.next ∧ ∀ ev, .resume p ∉ s.cbs ev
  intr : ∀ ev p, .interrupt p ∈ s.cbs ev → s.cbs ev = [.interrupt p] ∧ s.triggered ev = true ∧ p + 1 < ev ∧ Soft s p
  now : ∀ en ∈ s.queue, ∀ p, .interrupt p ∈ s.cbs en.ev → en.urgent = true ∧ en.time = s.now
  extra : ∀ n p, (n, p) ∈ s.extra → p + 1 < s.next ∧ ∀ pt, s.points p = some pt → pt.module = some n
  refs : ∀ p pt q, s.points p = some pt → pt.ref = some q → Helps s q
  kind : ∀ p pt n, s.points p = some pt → ¬ X p → pt.module = some n → alook n s.extra = some p
  init : ∀ p pt, s.points p = some pt → pt.isNew = true → ¬ X p → s.target p = p + 1 ∧ ∃ en ∈ s.queue, en.ev = p + 1 ∧ en.urgent = true ∧ en.time ≤ s.now
  urg : ∀ en ∈ s.queue, en.urgent = true → ∀ p, .resume p ∈ s.cbs en.ev → ∀ pt, s.points p = some pt → pt.isNew = true
  one : ∀ ev p q, .resume p ∈ s.cbs ev → .resume q ∈ s.cbs ev → p = q
  act : ∀ n a, (n, a) ∈ s.activate → a < s.next ∧ a ≠ s.procActivate ∧ ∀ q, .resume q ∈ s.cbs a → s.points q = some (.extraIdle n)
  dist : ∀ n m a, (n, a) ∈ s.activate → (m, a) ∈ s.activate → n = m
  proc : s.procActivate < s.next ∧ ∀ q, .resume q ∈ s.cbs s.procActivate → q = 2
  idle : ∀ e n, s.points e = some (.extraIdle n) → ¬ X e → alook n s.activate = some (s.target e) ∧ (0 < s.strikes e → s.triggered (s.target e) = true)
  busy : ∀ e pt n, s.points e = some pt → ¬ X e → pt.working = some n → (∃ a, alook n s.activate = some a ∧ s.triggered a = true) ∧ s.strikes e + D n ≤ orders n s.startedList
  newb : ∀ e n, s.points e = some (.extraNew n) → ¬ X e → s.strikes e = 0
  gens : ∀ p pt, s.points p = some pt → pt.gains

variable {D : String → ℕ} {X : ℕ → Prop} {s s' : Sim} {p : ℕ} {A B : Type}

/-! ## Elementary changes -/

theorem strikes_congr (hq : s'.queue = s.queue) (hc : ∀ en ∈ s.queue, .interrupt p ∈ s'.cbs en.ev ↔ .interrupt p ∈ s.cbs en.ev) : s'.strikes p = s.strikes p := by
  unfold Sim.strikes
  rw [hq]
  exact List.countP_congr fun en hen => by simpa using hc en hen

theorem strikes_le (hq : s'.queue.Sublist s.queue) (hc : ∀ en ∈ s.queue, .interrupt p ∈ s'.cbs en.ev → .interrupt p ∈ s.cbs en.ev) : s'.strikes p ≤ s.strikes p := by
  unfold Sim.strikes
  exact (hq.countP_le).trans (List.countP_mono_left fun en hen => by simpa using hc en hen)

/-- A change of the parts of the state that do not matter here, or of the memories and the requests. -/
theorem poised_aside (h : Poised D X s) (ha : Aside s s') (hw : ∀ e pt n, s.points e = some pt → ¬ X e → pt.working = some n → s.strikes e + D n ≤ orders n s.startedList → s.strikes e + D n ≤ orders n s'.startedList) :
    Poised D X s' := by
  obtain ⟨h0, h1, h2, h3, h4, h5, h6, h7, h8, h9⟩ := ha
  have hc : ∀ x, s'.cbs x = s.cbs x := fun x => by unfold Sim.cbs; rw [h4]
  have ht : ∀ x, s'.triggered x = s.triggered x := fun x => by unfold Sim.triggered; rw [h4]
  have hs : ∀ x, s'.strikes x = s.strikes x := fun x => strikes_congr h5 fun en _ => by rw [hc]
  have hsoft : ∀ x, Soft s x → Soft s' x := fun x hx => by unfold Soft at *; rw [h1, h2]; exact hx
  have hhelp : ∀ x, Helps s x → Helps s' x := fun x hx => by unfold Helps at *; rw [h1, h2]; exact hx
  constructor
  · rw [h5]; exact h.sorted
  · rw [h5]; exact h.ord
  · rw [h5, h1]; exact h.known
  · rw [h2, h1]; exact h.born
  · intro ev; rw [h1, hc]; exact h.unborn ev
  · intro p; rw [h1]; simp only [hc]; exact h.run p
  · intro ev p; rw [hc, ht]; exact fun hm => (h.intr ev p hm).imp_right fun x => x.imp_right fun x => x.imp_right (hsoft p)
  · rw [h5]; simp only [hc]; rw [h0]; exact h.now
  · rw [h6, h1, h2]; exact h.extra
  · rw [h2]; exact fun p pt q hp hr => hhelp q (h.refs p pt q hp hr)
  · rw [h2, h6]; exact h.kind
  · rw [h2, h3, h5, h0]; exact h.init
  · rw [h5, h2]; simp only [hc]; exact h.urg
  · simp only [hc]; exact h.one
  · rw [h7, h1, h8, h2]; simp only [hc]; exact h.act
  · rw [h7]; exact h.dist
  · rw [h8, h1, hc]; exact h.proc
  · rw [h2, h7, h3]; simp only [hs, ht]; exact h.idle
  · rw [h2, h7]; simp only [hs, ht]; exact fun e pt n hp hx hn => ⟨(h.busy e pt n hp hx hn).1, hw e pt n hp hx hn (h.busy e pt n hp hx hn).2⟩
  · rw [h2]; simp only [hs]; exact h.newb
  · rw [h2]; exact h.gens

theorem triggered_alloc_old {E : SEv} {ev : ℕ} (h : ev < s.next) : (s.alloc E).triggered ev = s.triggered ev := by
  unfold Sim.triggered
  rw [events_alloc_old (Nat.ne_of_lt h)]

theorem lt_of_mem (h : Poised D X s) {ev : ℕ} {cb : Callback} (hm : cb ∈ s.cbs ev) : ev < s.next := by
  by_contra hc
  rw [h.unborn ev (not_lt.1 hc)] at hm; cases hm

theorem soft_next (hn : s.next ≤ s'.next) (hp : s'.points p = s.points p) (h : Soft s p) : Soft s' p := ⟨h.1.trans_le hn, fun pt hpt => h.2 pt (hp ▸ hpt)⟩
theorem helps_next (hn : s.next ≤ s'.next) (hp : s'.points p = s.points p) (h : Helps s p) : Helps s' p := ⟨h.1.trans_le hn, fun pt hpt => h.2 pt (hp ▸ hpt)⟩

theorem strikes_alloc (h : Poised D X s) (E : SEv) (p : ℕ) : (s.alloc E).strikes p = s.strikes p :=
  strikes_congr rfl fun en hen => by rw [cbs_alloc_old (Nat.ne_of_lt (h.known en hen))]

/-- A new event. -/
theorem poised_alloc {v : Option (Except PyErr SVal)} {d : Bool} {l : List Callback} (h : Poised D X s)
    (hi : ∀ p, .interrupt p ∈ l → l = [.interrupt p] ∧ v.isSome ∧ Soft s p ∧ p + 1 < s.next) (hr : ∀ p q, .resume p ∈ l → .resume q ∈ l → p = q) (hx : ∀ p, .resume p ∈ l → ¬ X p) :
    Poised D X (s.alloc ⟨v, d, some l⟩) := by
  set s' := s.alloc ⟨v, d, some l⟩ with hs'
  have hold : ∀ x, x < s.next → s'.cbs x = s.cbs x := fun x hx => cbs_alloc_old (Nat.ne_of_lt hx)
  have hnew : s'.cbs s.next = l := cbs_alloc_new
  have hn : s.next ≤ s'.next := Nat.le_succ _
  have hcb : ∀ x cb, cb ∈ s'.cbs x → (x < s.next ∧ cb ∈ s.cbs x) ∨ (x = s.next ∧ cb ∈ l) := fun x cb hm => by
    by_cases he : x = s.next
    · subst he; rw [hnew] at hm; exact .inr ⟨rfl, hm⟩
    · have hm : cb ∈ s.cbs x := by rwa [cbs_alloc_old he] at hm
      exact .inl ⟨lt_of_mem h hm, hm⟩
  have hq : ∀ en ∈ s.queue, s'.cbs en.ev = s.cbs en.ev := fun en hen => hold _ (h.known en hen)
  have hst : ∀ x, s'.strikes x = s.strikes x := strikes_alloc h _
  have htr : ∀ x, s.triggered x = true → x < s.next → s'.triggered x = true := fun x hx hl => by rw [triggered_alloc_old hl]; exact hx
  constructor
  · exact h.sorted
  · exact h.ord
  · exact fun en hen => (h.known en hen).trans_le hn
  · exact fun p pt hp => (h.born p pt hp).trans_le hn
  · intro ev hev
    have hev : s.next + 1 ≤ ev := hev
    rw [hs', cbs_alloc_old (by omega)]; exact h.unborn ev (by omega)
  · refine fun p hp => ⟨(h.run p hp).1.trans_le hn, fun ev hm => ?_⟩
    rcases hcb ev _ hm with ⟨_, hm⟩ | ⟨_, hm⟩
    · exact (h.run p hp).2 ev hm
    · exact hx p hm hp
  · intro ev p hm0
    rcases hcb ev _ hm0 with ⟨hl, hm⟩ | ⟨he, hm⟩
    · obtain ⟨a1, a2, a3, a4⟩ := h.intr ev p hm
      exact ⟨by rw [hold ev hl]; exact a1, htr ev a2 hl, a3, soft_next hn rfl a4⟩
    · obtain ⟨a1, a2, a3, a4⟩ := hi p hm
      subst he
      exact ⟨by rw [hnew]; exact a1, by unfold Sim.triggered; rw [hs', events_alloc_new]; exact a2, a4, soft_next hn rfl a3⟩
  · intro en hen p hm
    rw [hq en hen] at hm; exact h.now en hen p hm
  · exact fun n p hm => ⟨(h.extra n p hm).1.trans_le hn, (h.extra n p hm).2⟩
  · exact fun p pt q hp hr => helps_next hn rfl (h.refs p pt q hp hr)
  · exact h.kind
  · exact h.init
  · intro en hen hu p hm
    rw [hq en hen] at hm; exact h.urg en hen hu p hm
  · intro ev p q h0 h2
    rcases hcb ev _ h0 with ⟨hl, h1⟩ | ⟨he, h1⟩
    · rw [hold ev hl] at h2; exact h.one ev p q h1 h2
    · have h3 := hr p q h1
      subst he
      rw [hnew] at h2; exact h3 h2
  · intro n a hm
    obtain ⟨a1, a2, a3⟩ := h.act n a hm
    exact ⟨a1.trans_le hn, a2, fun q hq => a3 q (by rwa [hold a a1] at hq)⟩
  · exact h.dist
  · exact ⟨h.proc.1.trans_le hn, fun q hq => h.proc.2 q (by rw [← hold _ h.proc.1]; exact hq)⟩
  · intro e n he hxe
    obtain ⟨a1, a2⟩ := h.idle e n he hxe
    exact ⟨a1, fun hs => htr _ (a2 (by rw [← hst]; exact hs)) (h.act n _ (alook_mem a1)).1⟩
  · intro e pt n he hxe hw
    obtain ⟨⟨a, a1, a2⟩, a3⟩ := h.busy e pt n he hxe hw
    exact ⟨⟨a, a1, htr _ a2 (h.act n a (alook_mem a1)).1⟩, by rw [hst]; exact a3⟩
  · intro e n he hxe; rw [hst]; exact h.newb e n he hxe
  · exact h.gens

theorem countP_insertEntry (f : Entry → Bool) (e : Entry) : ∀ l, (insertEntry e l).countP f = l.countP f + if f e then 1 else 0
  | [] => by simp [insertEntry, List.countP_cons]
  | x :: r => by
    unfold insertEntry
    split
    · rw [List.countP_cons, countP_insertEntry f e r, List.countP_cons]; omega
    · rw [List.countP_cons (a := e)]

theorem later_insert {e : Entry} : ∀ {l : List Entry}, (e.urgent = true → ∀ x ∈ l, x.ev < e.ev) → l.Pairwise Entry.upTo → l.Pairwise Entry.later → (insertEntry e l).Pairwise Entry.later
  | [], _, _, _ => by simp [insertEntry]
  | x :: r, hk, hs, hl => by
    obtain ⟨hs1, hs2⟩ := List.pairwise_cons.1 hs
    obtain ⟨hl1, hl2⟩ := List.pairwise_cons.1 hl
    unfold insertEntry
    split
    · refine List.pairwise_cons.2 ⟨fun y hy => ?_, later_insert (fun hu y hy => hk hu y (.tail _ hy)) hs2 hl2⟩
      rcases (mem_insertEntry _ _ _).1 hy with rfl | hy
      · exact fun _ hu _ => hk hu x (.head _)
      · exact hl1 y hy
    · rename_i hb
      refine List.pairwise_cons.2 ⟨fun y hy => ?_, hl⟩
      intro _ hy1 hy2
      have hxy : x.upTo y ∨ x = y := (List.mem_cons.1 hy).elim (fun h => .inr h.symm) fun h => .inl (hs1 y h)
      exfalso
      apply hb
      unfold Entry.before
      rcases hxy with (h1 | ⟨h1, h2 | h2⟩) | rfl
      · simp [hy2, h1]
      · simp [hy2, h1, h2]
      · rw [hy1] at h2; cases h2
      · simp [hy1, hy2]

/-- An event of the schedule. -/
theorem poised_insert {ev : ℕ} {u : Bool} {d : ℚ} (h : Poised D X s) (hk : ev < s.next) (hu : u = true → ∀ x ∈ s.queue, x.ev < ev)
    (hi : ∀ p, .interrupt p ∈ s.cbs ev → u = true ∧ d = 0) (hr : u = true → ∀ p, .resume p ∈ s.cbs ev → ∀ pt, s.points p = some pt → pt.isNew = true)
    (hb : ∀ p, .interrupt p ∈ s.cbs ev → ¬ X p → (∀ n, s.points p = some (.extraIdle n) → s.triggered (s.target p) = true) ∧ (∀ n, s.points p ≠ some (.extraNew n)) ∧
      ∀ pt n, s.points p = some pt → pt.working = some n → s.strikes p + 1 + D n ≤ orders n s.startedList) : Poised D X (s.schedule ev u d) := by
  set s' := s.schedule ev u d with hs'
  have hst : ∀ x, s'.strikes x = s.strikes x + if .interrupt x ∈ s.cbs ev then 1 else 0 := fun x => by
    show (insertEntry _ s.queue).countP _ = _
    rw [countP_insertEntry]
    unfold Sim.strikes
    simp only [decide_eq_true_eq]
    rfl
  have hq : ∀ en ∈ s'.queue, en = ⟨s.now + d, u, ev⟩ ∨ en ∈ s.queue := fun en hen => (mem_insertEntry _ _ _).1 hen
  constructor
  · exact insertEntry_sorted _ _ h.sorted
  · exact later_insert hu h.sorted h.ord
  · intro en hen
    rcases hq en hen with rfl | hen
    · exact hk
    · exact h.known en hen
  · exact h.born
  · exact h.unborn
  · exact h.run
  · exact h.intr
  · intro en hen p hm
    rcases hq en hen with rfl | hen
    · obtain ⟨h1, rfl⟩ := hi p hm
      exact ⟨h1, add_zero _⟩
    · exact h.now en hen p hm
  · exact h.extra
  · exact h.refs
  · exact h.kind
  · intro p pt h1 h2 h3
    obtain ⟨h4, en, h5, h6⟩ := h.init p pt h1 h2 h3
    exact ⟨h4, en, (mem_insertEntry _ _ _).2 (.inr h5), h6⟩
  · intro en hen h1 p hm
    rcases hq en hen with rfl | hen
    · exact hr h1 p hm
    · exact h.urg en hen h1 p hm
  · exact h.one
  · exact h.act
  · exact h.dist
  · exact h.proc
  · intro e n he hx
    obtain ⟨a1, a2⟩ := h.idle e n he hx
    refine ⟨a1, fun hs => ?_⟩
    by_cases hm : .interrupt e ∈ s.cbs ev
    · exact (hb e hm hx).1 n he
    · rw [hst, if_neg hm] at hs; exact a2 hs
  · intro e pt n he hx hw
    refine ⟨(h.busy e pt n he hx hw).1, ?_⟩
    by_cases hm : .interrupt e ∈ s.cbs ev
    · rw [hst, if_pos hm]; exact (hb e hm hx).2.2 pt n he hw
    · rw [hst, if_neg hm]; exact (h.busy e pt n he hx hw).2
  · intro e n he hx
    by_cases hm : .interrupt e ∈ s.cbs ev
    · exact absurd he ((hb e hm hx).2.1 n)
    · rw [hst, if_neg hm]; exact h.newb e n he hx
  · exact h.gens

/-- An event gets a value. -/
theorem poised_value {ev : ℕ} {v : Except PyErr SVal} (h : Poised D X s) : Poised D X { s with events := fset s.events ev { s.events ev with value := some v } } := by
  set s' : Sim := { s with events := fset s.events ev { s.events ev with value := some v } } with hs'
  have hc : ∀ x, s'.cbs x = s.cbs x := fun x => by
    show (fset s.events ev _ x).callbacks.getD [] = _
    by_cases hx : x = ev
    · subst hx; rw [fset_same]; rfl
    · rw [fset_other _ _ hx]; rfl
  have ht : ∀ x, s.triggered x = true → s'.triggered x = true := fun x hx => by
    show (fset s.events ev _ x).value.isSome = true
    by_cases he : x = ev
    · subst he; rw [fset_same]; rfl
    · rw [fset_other _ _ he]; exact hx
  have hst : ∀ x, s'.strikes x = s.strikes x := fun x => strikes_congr rfl fun en _ => by rw [hc]
  constructor
  · exact h.sorted
  · exact h.ord
  · exact h.known
  · exact h.born
  · simp only [hc]; exact h.unborn
  · simp only [hc]; exact h.run
  · simp only [hc]; exact fun x p hm => (h.intr x p hm).imp_right fun y => ⟨ht x y.1, y.2⟩
  · simp only [hc]; exact h.now
  · exact h.extra
  · exact h.refs
  · exact h.kind
  · exact h.init
  · simp only [hc]; exact h.urg
  · simp only [hc]; exact h.one
  · simp only [hc]; exact h.act
  · exact h.dist
  · rw [hc]; exact h.proc
  · exact fun e n he hx => (h.idle e n he hx).imp_right fun y hs => ht _ (y (by rw [← hst]; exact hs))
  · exact fun e pt n he hx hw => ⟨(h.busy e pt n he hx hw).1.imp fun a y => y.imp_right (ht a), by rw [hst]; exact (h.busy e pt n he hx hw).2⟩
  · simp only [hst]; exact h.newb
  · exact h.gens

/-- An event that has not been triggered interrupts nobody. -/
theorem calm_untriggered {ev : ℕ} (h : Poised D X s) (ht : s.triggered ev = false) (p : ℕ) : .interrupt p ∉ s.cbs ev := fun hm => by
  rw [(h.intr ev p hm).2.1] at ht; cases ht

theorem poised_trigger {ev : ℕ} {v : Except PyErr SVal} (h : Poised D X s) (hk : ev < s.next) (hi : ∀ p, .interrupt p ∉ s.cbs ev) : Poised D X (s.trigger ev v) := by
  have hc : ∀ p, .interrupt p ∉ Sim.cbs { s with events := fset s.events ev { s.events ev with value := some v } } ev := fun p hm => hi p (by
    have : _ ∈ (fset s.events ev _ ev).callbacks.getD [] := hm
    rwa [fset_same] at this)
  exact poised_insert (poised_value h) hk (by simp) (fun p hm => absurd hm (hc p)) (by simp) (fun p hm => absurd hm (hc p))

/-- The callback of a condition. -/
theorem poised_check {ev c : ℕ} (h : Poised D X s) (hk : ev < s.next) (hi : ∀ p, .interrupt p ∉ s.cbs ev) : Poised D X (s.addCallback ev (.check c)) := by
  set s' := s.addCallback ev (.check c) with hs'
  have hr : ∀ x p, .resume p ∈ s'.cbs x ↔ .resume p ∈ s.cbs x := fun x p => ⟨fun hm => (mem_addCallback hm).elim id (fun h => by cases h.1), mem_addCallback_old⟩
  have hint : ∀ x p, .interrupt p ∈ s'.cbs x ↔ .interrupt p ∈ s.cbs x := fun x p => ⟨fun hm => (mem_addCallback hm).elim id (fun h => by cases h.1), mem_addCallback_old⟩
  have hst : ∀ x, s'.strikes x = s.strikes x := fun x => strikes_congr rfl fun en _ => hint _ _
  have ht : ∀ x, s'.triggered x = s.triggered x := fun x => by unfold Sim.triggered; rw [hs', value_addCallback]
  constructor
  · exact h.sorted
  · exact h.ord
  · exact h.known
  · exact h.born
  · intro x hx
    rw [hs', cbs_addCallback_other (ne_of_gt (hk.trans_le hx))]; exact h.unborn x hx
  · simp only [hr]; exact h.run
  · intro x p hm
    rw [hint] at hm
    have he : x ≠ ev := fun he => hi p (he ▸ hm)
    obtain ⟨a1, a2, a3, a4⟩ := h.intr x p hm
    refine ⟨?_, by rw [ht]; exact a2, a3, a4⟩
    show (fset s.events ev _ x).callbacks.getD [] = _
    rw [fset_other _ _ he]; exact a1
  · simp only [hint]; exact h.now
  · exact h.extra
  · exact h.refs
  · exact h.kind
  · exact h.init
  · simp only [hr]; exact h.urg
  · simp only [hr]; exact h.one
  · simp only [hr]; exact h.act
  · exact h.dist
  · exact ⟨h.proc.1, fun q hq => h.proc.2 q ((hr _ _).1 hq)⟩
  · simp only [hst, ht]; exact h.idle
  · simp only [hst, ht]; exact h.busy
  · simp only [hst]; exact h.newb
  · exact h.gens

theorem aset_mem' {α : Type} {n m : String} {a b : α} {l : List (String × α)} (h : (m, b) ∈ aset n a l) : (m = n ∧ b = a) ∨ (m, b) ∈ l := by
  induction l with
  | nil => simp [aset] at h; exact .inl h
  | cons x r ih =>
    obtain ⟨k, c⟩ := x
    simp only [aset] at h
    split at h
    · rename_i hk
      rcases List.mem_cons.1 h with h | h
      · cases h; exact .inl ⟨by simpa using hk, rfl⟩
      · exact .inr (.tail _ h)
    · rcases List.mem_cons.1 h with h | h
      · cases h; exact .inr (.head _)
      · exact (ih h).imp_right (.tail _)

theorem cbs_dropped (s : Sim) (ev : ℕ) (c : Callback) (x : ℕ) : (s.dropCallback ev c).cbs x = if x = ev then (s.cbs x).erase c else s.cbs x := by
  unfold Sim.cbs
  show ((fset s.events ev _ x).callbacks).getD [] = _
  by_cases hx : x = ev
  · subst hx; rw [fset_same, if_pos rfl]; cases (s.events x).callbacks <;> simp
  · rw [fset_other _ _ hx, if_neg hx]

theorem triggered_drop (s : Sim) (ev : ℕ) (c : Callback) (x : ℕ) : (s.dropCallback ev c).triggered x = s.triggered x := by
  show (fset s.events ev _ x).value.isSome = _
  by_cases hx : x = ev
  · subst hx; rw [fset_same]; rfl
  · rw [fset_other _ _ hx]; rfl

theorem drop_interrupt {ev : ℕ} {c : Callback} (hc : ∀ p, c ≠ .interrupt p) (x : ℕ) : .interrupt p ∈ (s.dropCallback ev c).cbs x ↔ .interrupt p ∈ s.cbs x := by
  rw [cbs_dropped]
  split
  · exact List.mem_erase_of_ne (hc p).symm
  · exact .rfl

theorem strikes_drop {ev : ℕ} {c : Callback} (hc : ∀ p, c ≠ .interrupt p) (p : ℕ) : (s.dropCallback ev c).strikes p = s.strikes p :=
  strikes_congr rfl fun en _ => drop_interrupt hc _

/-- A callback that does not interrupt processes is removed; so some process may be running. -/
theorem poised_drop {X' : ℕ → Prop} {ev : ℕ} {c : Callback} (h : Poised D X s) (hc : ∀ p, c ≠ .interrupt p) (hx : ∀ p, X p → X' p)
    (hr : ∀ p, X' p → X p ∨ (p + 1 < s.next ∧ ∀ ev', .resume p ∉ (s.dropCallback ev c).cbs ev')) : Poised D X' (s.dropCallback ev c) := by
  set s' := s.dropCallback ev c with hs'
  have hsub : ∀ x cb, cb ∈ s'.cbs x → cb ∈ s.cbs x := fun x cb hm => mem_drop hm
  have hst : ∀ x, s'.strikes x = s.strikes x := strikes_drop hc
  have ht : ∀ x, s'.triggered x = s.triggered x := triggered_drop s ev c
  have hn : ∀ p, ¬ X' p → ¬ X p := fun p h1 h2 => h1 (hx p h2)
  constructor
  · exact h.sorted
  · exact h.ord
  · exact h.known
  · exact h.born
  · intro x hx
    rw [hs', cbs_dropped]
    split
    · rw [h.unborn x hx]; rfl
    · exact h.unborn x hx
  · intro p hp
    rcases hr p hp with h1 | h1
    · exact ⟨(h.run p h1).1, fun x hm => (h.run p h1).2 x (hsub _ _ hm)⟩
    · exact h1
  · intro x p hm
    obtain ⟨a1, a2, a3, a4⟩ := h.intr x p (hsub _ _ hm)
    refine ⟨?_, by rw [ht]; exact a2, a3, a4⟩
    rw [hs', cbs_dropped]
    split
    · rw [a1, List.erase_of_not_mem]
      simpa using hc p
    · exact a1
  · exact fun en hen p hm => h.now en hen p (hsub _ _ hm)
  · exact h.extra
  · exact h.refs
  · exact fun p pt n h1 h2 => h.kind p pt n h1 (hn p h2)
  · exact fun p pt h1 h2 h3 => h.init p pt h1 h2 (hn p h3)
  · exact fun en hen hu p hm => h.urg en hen hu p (hsub _ _ hm)
  · exact fun x p q h1 h2 => h.one x p q (hsub _ _ h1) (hsub _ _ h2)
  · exact fun n a hm => ⟨(h.act n a hm).1, (h.act n a hm).2.1, fun q hq => (h.act n a hm).2.2 q (hsub _ _ hq)⟩
  · exact h.dist
  · exact ⟨h.proc.1, fun q hq => h.proc.2 q (hsub _ _ hq)⟩
  · simp only [hst, ht]; exact fun e n h1 h2 => h.idle e n h1 (hn e h2)
  · simp only [hst, ht]; exact fun e pt n h1 h2 => h.busy e pt n h1 (hn e h2)
  · simp only [hst]; exact fun e n h1 h2 => h.newb e n h1 (hn e h2)
  · exact h.gens

theorem poised_defuse {ev : ℕ} (h : Poised D X s) : Poised D X (s.defuse ev) := by
  set s' := s.defuse ev with hs'
  have hc : ∀ x, s'.cbs x = s.cbs x := cbs_defuse s ev
  have ht : ∀ x, s'.triggered x = s.triggered x := fun x => by
    show (fset s.events ev _ x).value.isSome = _
    by_cases he : x = ev
    · subst he; rw [fset_same]; rfl
    · rw [fset_other _ _ he]; rfl
  have hst : ∀ x, s'.strikes x = s.strikes x := fun x => strikes_congr rfl fun en _ => by rw [hc]
  constructor
  · exact h.sorted
  · exact h.ord
  · exact h.known
  · exact h.born
  · simp only [hc]; exact h.unborn
  · simp only [hc]; exact h.run
  · simp only [hc, ht]; exact h.intr
  · simp only [hc]; exact h.now
  · exact h.extra
  · exact h.refs
  · exact h.kind
  · exact h.init
  · simp only [hc]; exact h.urg
  · simp only [hc]; exact h.one
  · simp only [hc]; exact h.act
  · exact h.dist
  · rw [hc]; exact h.proc
  · simp only [hst, ht]; exact h.idle
  · simp only [hst, ht]; exact h.busy
  · simp only [hst]; exact h.newb
  · exact h.gens

/-- A new event that activates a module. -/
theorem poised_activate {n : String} {a : ℕ} (h : Poised D X s) (hk : a < s.next) (hp : a ≠ s.procActivate) (hr : ∀ q, .resume q ∉ s.cbs a) (hn : ∀ m, (m, a) ∉ s.activate)
    (hb : ∀ e pt, s.points e = some pt → pt.module = some n → X e) : Poised D X { s with activate := aset n a s.activate } := by
  have hmem : ∀ m b, (m, b) ∈ aset n a s.activate → (m = n ∧ b = a) ∨ (m, b) ∈ s.activate := fun m b hm => aset_mem' hm
  constructor
  · exact h.sorted
  · exact h.ord
  · exact h.known
  · exact h.born
  · exact h.unborn
  · exact h.run
  · exact h.intr
  · exact h.now
  · exact h.extra
  · exact h.refs
  · exact h.kind
  · exact h.init
  · exact h.urg
  · exact h.one
  · intro m b hm
    rcases hmem m b hm with ⟨rfl, rfl⟩ | hm
    · exact ⟨hk, hp, fun q hq => absurd hq (hr q)⟩
    · exact h.act m b hm
  · intro m k b h1 h2
    rcases hmem m b h1 with ⟨h3, h4⟩ | h3 <;> rcases hmem k b h2 with ⟨h5, h6⟩ | h5
    · rw [h3, h5]
    · exact absurd (h4 ▸ h5) (hn k)
    · exact absurd (h6 ▸ h3) (hn m)
    · exact h.dist m k b h3 h5
  · exact h.proc
  · intro e m he hx
    have hne : m ≠ n := fun hm => hx (hb e _ he (by rw [hm]; rfl))
    show alook m (aset n a s.activate) = _ ∧ _
    rw [alook_aset, if_neg hne]; exact h.idle e m he hx
  · intro e pt m he hx hw
    have hmod : pt.module = some m := by cases pt <;> first | exact hw | cases hw
    have hne : m ≠ n := fun hm => hx (hb e _ he (hm ▸ hmod))
    show (∃ b, alook m (aset n a s.activate) = _ ∧ _) ∧ _
    rw [alook_aset, if_neg hne]; exact h.busy e pt m he hx hw
  · exact h.newb
  · exact h.gens

/-- A new event that activates the process of the rules. -/
theorem poised_procActivate {a : ℕ} (h : Poised D X s) (hk : a < s.next) (hr : ∀ q, .resume q ∉ s.cbs a) (hn : ∀ m, (m, a) ∉ s.activate) : Poised D X { s with procActivate := a } := by
  constructor
  · exact h.sorted
  · exact h.ord
  · exact h.known
  · exact h.born
  · exact h.unborn
  · exact h.run
  · exact h.intr
  · exact h.now
  · exact h.extra
  · exact h.refs
  · exact h.kind
  · exact h.init
  · exact h.urg
  · exact h.one
  · exact fun m b hm => ⟨(h.act m b hm).1, fun he => hn m (show (m, a) ∈ s.activate by rw [show a = b from he.symm]; exact hm), (h.act m b hm).2.2⟩
  · exact h.dist
  · exact ⟨hk, fun q hq => absurd hq (hr q)⟩
  · exact h.idle
  · exact h.busy
  · exact h.newb
  · exact h.gens

/-- A new process. -/
theorem poised_point {pt : Pt} (h : Poised D X s) (hp : s.points p = Option.none) (hx : ¬ X p) (hk : p + 1 < s.next) (hn : pt.isNew = true) (hr : pt.ref = Option.none)
    (hq : ∃ en ∈ s.queue, en.ev = p + 1 ∧ en.urgent = true ∧ en.time ≤ s.now) (hs : ∀ ev, .interrupt p ∉ s.cbs ev) (hex : ∀ n, (n, p) ∈ s.extra → pt.module = some n) (hf : ∀ q pt', s.points q = some pt' → pt'.ref ≠ some p)
    (hm : ∀ n, pt.module = some n → alook n s.extra = some p) (hg : pt.gains) (hres : ∀ n a, (n, a) ∈ s.activate → .resume p ∉ s.cbs a) :
    Poised D X { s with points := fset s.points p (some pt), target := fset s.target p (p + 1) } := by
  set s' : Sim := { s with points := fset s.points p (some pt), target := fset s.target p (p + 1) } with hs'
  have hother : ∀ q, q ≠ p → s'.points q = s.points q := fun q hq => fset_other _ _ hq
  have hsame : s'.points p = some pt := fset_same _ _ _
  have htar : ∀ q, q ≠ p → s'.target q = s.target q := fun q hq => fset_other _ _ hq
  have hcase : ∀ q pt', s'.points q = some pt' → (q ≠ p ∧ s.points q = some pt') ∨ (q = p ∧ pt' = pt) := fun q pt' hq => by
    by_cases he : q = p
    · rw [he, hsame] at hq; exact .inr ⟨he, (Option.some.inj hq).symm⟩
    · rw [hother q he] at hq; exact .inl ⟨he, hq⟩
  have hst : ∀ x, s'.strikes x = s.strikes x := fun x => rfl
  constructor
  · exact h.sorted
  · exact h.ord
  · exact h.known
  · intro q pt' hq
    rcases hcase q pt' hq with ⟨_, h1⟩ | ⟨rfl, _⟩
    · exact h.born q pt' h1
    · exact hk
  · exact h.unborn
  · exact h.run
  · intro ev q hm
    have hne : q ≠ p := fun he => hs ev (he ▸ hm)
    obtain ⟨a1, a2, a3, a4⟩ := h.intr ev q hm
    exact ⟨a1, a2, a3, soft_next (s := s) (s' := s') le_rfl (hother q hne) a4⟩
  · exact h.now
  · intro n q hm
    refine ⟨(h.extra n q hm).1, fun pt' hq => ?_⟩
    rcases hcase q pt' hq with ⟨_, h1⟩ | ⟨rfl, rfl⟩
    · exact (h.extra n q hm).2 pt' h1
    · exact hex n hm
  · intro q pt' r hq hr'
    rcases hcase q pt' hq with ⟨_, h1⟩ | ⟨_, rfl⟩
    · have hne : r ≠ p := fun he => hf q pt' h1 (he ▸ hr')
      exact helps_next (s := s) (s' := s') le_rfl (hother r hne) (h.refs q pt' r h1 hr')
    · rw [hr] at hr'; cases hr'
  · intro q pt' n hq hx' hm'
    rcases hcase q pt' hq with ⟨_, h1⟩ | ⟨rfl, rfl⟩
    · exact h.kind q pt' n h1 hx' hm'
    · exact hm n hm'
  · intro q pt' hq1 h2 h3
    rcases hcase q pt' hq1 with ⟨hne, h1⟩ | ⟨rfl, rfl⟩
    · rw [htar q hne]; exact h.init q pt' h1 h2 h3
    · exact ⟨fset_same _ _ _, hq⟩
  · intro en hen hu q hm' pt' hq
    rcases hcase q pt' hq with ⟨_, h1⟩ | ⟨rfl, rfl⟩
    · exact h.urg en hen hu q hm' pt' h1
    · exact hn
  · exact h.one
  · intro n a hm'
    obtain ⟨a1, a2, a3⟩ := h.act n a hm'
    refine ⟨a1, a2, fun q hq => ?_⟩
    have hne : q ≠ p := fun he => hres n a hm' (he ▸ hq)
    rw [hother q hne]; exact a3 q hq
  · exact h.dist
  · exact h.proc
  · intro e n he hxe
    rcases hcase e _ he with ⟨hne, h1⟩ | ⟨rfl, rfl⟩
    · rw [htar e hne]; exact h.idle e n h1 hxe
    · simp [Pt.isNew] at hn
  · intro e pt' n he hxe hw
    rcases hcase e _ he with ⟨hne, h1⟩ | ⟨rfl, rfl⟩
    · exact h.busy e pt' n h1 hxe hw
    · cases pt' <;> first | contradiction | (simp [Pt.isNew] at hn; done) | (simp [Pt.working] at hw; done)
  · intro e n he hxe
    rcases hcase e _ he with ⟨hne, h1⟩ | ⟨rfl, rfl⟩
    · exact h.newb e n h1 hxe
    · show s.strikes e = 0
      refine List.countP_eq_zero.2 fun en _ => ?_
      simpa using hs en.ev
  · intro q pt' hq
    rcases hcase q pt' hq with ⟨_, h1⟩ | ⟨_, rfl⟩
    · exact h.gens q pt' h1
    · exact hg

/-- What is known of a running process that is going to wait. -/
structure PoisedRes (e : ℕ) (pt : Pt) (s : Sim) (ev : ℕ) (pt' : Pt) : Prop where
  known : ev < s.next
  free : ∀ q, .resume q ∉ s.cbs ev
  calm : ∀ q, .interrupt q ∉ s.cbs ev
  slow : ∀ en ∈ s.queue, en.ev = ev → en.urgent = false
  old : pt'.isNew = false
  same : pt'.module = pt.module ∧ (pt.helper = true → pt'.helper = true)
  refs : ∀ q, pt'.ref = some q → Helps s q
  gains : pt'.gains
  act : ∀ n, (n, ev) ∈ s.activate → pt' = .extraIdle n
  proc : ev = s.procActivate → e = 2
  idle : ∀ n, pt' = .extraIdle n → alook n s.activate = some ev ∧ s.strikes e = 0
  busy : ∀ n, pt'.working = some n → (∃ a, alook n s.activate = some a ∧ s.triggered a = true) ∧ s.strikes e ≤ orders n s.startedList

/-- A running process waits. -/
theorem poised_waits {pt pt' : Pt} {ev : ℕ} (h : Poised (fun _ => 0) (fun q => q = p) s) (hp : s.points p = some pt) (hm : ∀ n, pt.module = some n → alook n s.extra = some p)
    (hr : PoisedRes p pt s ev pt') : Poised (fun _ => 0) (fun _ => False) (s.waits p ev pt') := by
  set s' := s.waits p ev pt' with hs'
  have hoff := (h.run p rfl).2
  have hother : ∀ q, q ≠ p → s'.points q = s.points q := fun q hq => fset_other _ _ hq
  have hsame : s'.points p = some pt' := fset_same _ _ _
  have htar : ∀ q, q ≠ p → s'.target q = s.target q := fun q hq => fset_other _ _ hq
  have htar' : s'.target p = ev := fset_same _ _ _
  have hcase : ∀ q pt1, s'.points q = some pt1 → (q ≠ p ∧ s.points q = some pt1) ∨ (q = p ∧ pt1 = pt') := fun q pt1 hq => by
    by_cases he : q = p
    · rw [he, hsame] at hq; exact .inr ⟨he, (Option.some.inj hq).symm⟩
    · rw [hother q he] at hq; exact .inl ⟨he, hq⟩
  have hcb : ∀ x cb, cb ∈ s'.cbs x → cb ∈ s.cbs x ∨ (cb = .resume p ∧ x = ev) := fun x cb hm => mem_addCallback hm
  have hcb' : ∀ x cb, cb ∈ s.cbs x → cb ∈ s'.cbs x := fun x cb hm => mem_addCallback_old hm
  have hint : ∀ x q, .interrupt q ∈ s'.cbs x ↔ .interrupt q ∈ s.cbs x := fun x q => ⟨fun hm => (hcb x _ hm).elim id (fun h => by cases h.1), hcb' x _⟩
  have hst : ∀ x, s'.strikes x = s.strikes x := fun x => strikes_congr rfl fun en _ => hint _ _
  have ht : ∀ x, s'.triggered x = s.triggered x := fun x => by unfold Sim.triggered; exact congrArg _ (value_addCallback _ _ _ _)
  have hsoft : ∀ q, Soft s q → Soft s' q := fun q hq => ⟨hq.1, fun pt1 h1 => by
    rcases hcase q pt1 h1 with ⟨_, h1⟩ | ⟨rfl, rfl⟩
    · exact hq.2 pt1 h1
    · rcases hq.2 pt hp with h2 | h2
      · exact .inl (hr.same.2 h2)
      · exact .inr (hr.same.1 ▸ h2)⟩
  have hhelp : ∀ q, Helps s q → Helps s' q := fun q hq => ⟨hq.1, fun pt1 h1 => by
    rcases hcase q pt1 h1 with ⟨_, h1⟩ | ⟨rfl, rfl⟩
    · exact hq.2 pt1 h1
    · exact hr.same.2 (hq.2 pt hp)⟩
  constructor
  · exact h.sorted
  · exact h.ord
  · exact h.known
  · intro q pt1 hq
    rcases hcase q pt1 hq with ⟨_, h1⟩ | ⟨rfl, _⟩
    · exact h.born q pt1 h1
    · exact h.born q pt hp
  · intro x hx
    have : s'.cbs x = s.cbs x := cbs_addCallback_other (ne_of_gt (hr.known.trans_le hx))
    rw [this]; exact h.unborn x hx
  · exact fun _ hf => hf.elim
  · intro x q hm
    rw [hint] at hm
    obtain ⟨a1, a2, a3, a4⟩ := h.intr x q hm
    have he : x ≠ ev := fun he => hr.calm q (he ▸ hm)
    refine ⟨?_, by rw [ht]; exact a2, a3, hsoft q a4⟩
    have : s'.cbs x = s.cbs x := cbs_addCallback_other he
    rw [this]; exact a1
  · simp only [hint]; exact h.now
  · intro n q hm'
    obtain ⟨a1, a2⟩ := h.extra n q hm'
    refine ⟨a1, fun pt1 h1 => ?_⟩
    rcases hcase q pt1 h1 with ⟨_, h1⟩ | ⟨rfl, rfl⟩
    · exact a2 pt1 h1
    · rw [hr.same.1]; exact a2 pt hp
  · intro q pt1 r hq hr'
    rcases hcase q pt1 hq with ⟨_, h1⟩ | ⟨_, rfl⟩
    · exact hhelp r (h.refs q pt1 r h1 hr')
    · exact hhelp r (hr.refs r hr')
  · intro q pt1 n hq _ hm'
    rcases hcase q pt1 hq with ⟨hne, h1⟩ | ⟨rfl, rfl⟩
    · exact h.kind q pt1 n h1 hne hm'
    · exact hm n (hr.same.1 ▸ hm')
  · intro q pt1 hq1 h2 _
    rcases hcase q pt1 hq1 with ⟨hne, h1⟩ | ⟨rfl, rfl⟩
    · rw [htar q hne]; exact h.init q pt1 h1 h2 hne
    · rw [hr.old] at h2; cases h2
  · intro en hen hu q hm' pt1 hq
    rcases hcb _ _ hm' with hm' | ⟨_, he⟩
    · have hne : q ≠ p := fun he => hoff _ (he ▸ hm')
      exact h.urg en hen hu q hm' pt1 (by rw [← hother q hne]; exact hq)
    · rw [hr.slow en hen he] at hu; cases hu
  · intro x q r h1 h2
    rcases hcb _ _ h1 with h1 | ⟨h1, h3⟩ <;> rcases hcb _ _ h2 with h2 | ⟨h2, h4⟩
    · exact h.one x q r h1 h2
    · exact absurd (h4 ▸ h1) (hr.free q)
    · exact absurd (h3 ▸ h2) (hr.free r)
    · cases h1; cases h2; rfl
  · intro n a hm'
    obtain ⟨a1, a2, a3⟩ := h.act n a hm'
    refine ⟨a1, a2, fun q hq => ?_⟩
    rcases hcb _ _ hq with hq | ⟨hq, he⟩
    · have hne : q ≠ p := fun he => hoff _ (he ▸ hq)
      rw [hother q hne]; exact a3 q hq
    · cases hq
      rw [hsame, hr.act n (he ▸ hm')]
  · exact h.dist
  · refine ⟨h.proc.1, fun q hq => ?_⟩
    rcases hcb _ _ hq with hq | ⟨hq, he⟩
    · exact h.proc.2 q hq
    · cases hq; exact hr.proc he.symm
  · intro e n he _
    rcases hcase e _ he with ⟨hne, h1⟩ | ⟨rfl, h1⟩
    · rw [htar e hne, hst, ht]; exact h.idle e n h1 hne
    · rw [htar', hst]
      obtain ⟨a1, a2⟩ := hr.idle n h1.symm
      exact ⟨a1, fun h0 => by rw [a2] at h0; omega⟩
  · intro e pt1 n he _ hw
    simp only [hst, ht]
    rcases hcase e _ he with ⟨hne, h1⟩ | ⟨rfl, rfl⟩
    · exact h.busy e pt1 n h1 hne hw
    · exact hr.busy n hw
  · intro e n he _
    rw [hst]
    rcases hcase e _ he with ⟨hne, h1⟩ | ⟨rfl, h1⟩
    · exact h.newb e n h1 hne
    · have := hr.old
      rw [← h1] at this; cases this
  · intro q pt1 hq
    rcases hcase q pt1 hq with ⟨_, h1⟩ | ⟨_, rfl⟩
    · exact h.gens q pt1 h1
    · exact hr.gains

/-- A running process ends. -/
theorem poised_ends {pt : Pt} {v : Except PyErr SVal} (h : Poised D (fun q => q = p) s) (hp : s.points p = some pt) (ht : ∀ q, .interrupt q ∉ s.cbs p) :
    Poised D (fun _ => False) (s.ends p v) := by
  have hoff := (h.run p rfl).2
  set s' : Sim := { s with points := fset s.points p Option.none } with hs'
  have hcase : ∀ q pt1, s'.points q = some pt1 → q ≠ p ∧ s.points q = some pt1 := fun q pt1 hq => by
    by_cases he : q = p
    · have : s'.points p = Option.none := fset_same _ _ _
      rw [he, this] at hq; cases hq
    · have : s'.points q = s.points q := fset_other _ _ he
      rw [this] at hq; exact ⟨he, hq⟩
  have h' : Poised D (fun _ => False) s' := by
    constructor
    · exact h.sorted
    · exact h.ord
    · exact h.known
    · exact fun q pt1 hq => h.born q pt1 (hcase q pt1 hq).2
    · exact h.unborn
    · exact fun _ hf => hf.elim
    · exact fun x q hm => (h.intr x q hm).imp_right fun y => y.imp_right fun y => y.imp_right fun y => ⟨y.1, fun pt1 hq => y.2 pt1 (hcase q pt1 hq).2⟩
    · exact h.now
    · exact fun n q hm => (h.extra n q hm).imp_right fun y pt1 hq => y pt1 (hcase q pt1 hq).2
    · exact fun q pt1 r hq hr => (h.refs q pt1 r (hcase q pt1 hq).2 hr).imp_right fun y pt2 h2 => y pt2 (hcase r pt2 h2).2
    · exact fun q pt1 n hq _ => h.kind q pt1 n (hcase q pt1 hq).2 (hcase q pt1 hq).1
    · exact fun q pt1 hq h1 _ => h.init q pt1 (hcase q pt1 hq).2 h1 (hcase q pt1 hq).1
    · exact fun en hen hu q hm pt1 hq => h.urg en hen hu q hm pt1 (hcase q pt1 hq).2
    · exact h.one
    · refine fun n a hm => (h.act n a hm).imp_right fun y => y.imp_right fun y q hq => ?_
      have hne : q ≠ p := fun he => hoff _ (he ▸ hq)
      have : s'.points q = s.points q := fset_other _ _ hne
      rw [this]; exact y q hq
    · exact h.dist
    · exact h.proc
    · exact fun e n he _ => h.idle e n (hcase e _ he).2 (hcase e _ he).1
    · exact fun e pt1 n he _ => h.busy e pt1 n (hcase e _ he).2 (hcase e _ he).1
    · exact fun e n he _ => h.newb e n (hcase e _ he).2 (hcase e _ he).1
    · exact fun q pt1 hq => h.gens q pt1 (hcase q pt1 hq).2
  exact poised_trigger h' ((Nat.lt_succ_self _).trans (h.born p pt hp)) ht

end Verif
