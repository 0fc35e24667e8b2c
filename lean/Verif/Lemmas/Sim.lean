import Verif.Lemmas.Yields
/-! # Invariants of simulations -/
namespace Verif
open Verif.Spec

/-! ## Code with effects on the simulation -/

/-- From a state with `I`, a piece of code leads to another one, related to the first by `R`, and its result satisfies `Q`. -/
def Does (I : Sim → Prop) (R : Sim → Sim → Prop) {A : Type} (m : SimM A) (s : Sim) (Q : Sim → A → Prop) : Prop :=
  I (m s).1 ∧ R s (m s).1 ∧ ∀ a, (m s).2 = .ok a → Q (m s).1 a

section
variable {I : Sim → Prop} {R : Sim → Sim → Prop} {A B : Type} {s : Sim}

theorem does_bind (ht : ∀ a b c, R a b → R b c → R a c) {m : SimM A} {f : A → SimM B} {Q : Sim → A → Prop} {Q' : Sim → B → Prop}
    (hm : Does I R m s Q) (hf : ∀ a s', I s' → R s s' → Q s' a → Does I R (f a) s' Q') : Does I R (m >>= f) s Q' := by
  obtain ⟨h1, h2, h3⟩ := hm
  show Does I R (SimM.bind m f) s Q'
  unfold Does SimM.bind
  rcases h : m s with ⟨s', r | a⟩
  · rw [h] at h1 h2; exact ⟨h1, h2, by simp⟩
  · rw [h] at h1 h2 h3
    obtain ⟨a1, a2, a3⟩ := hf a s' h1 h2 (h3 a rfl)
    exact ⟨a1, ht _ _ _ h2 a2, a3⟩

theorem does_pure (hr : ∀ a, R a a) {a : A} {Q : Sim → A → Prop} (hi : I s) (hq : Q s a) : Does I R (pure a) s Q :=
  ⟨hi, hr s, fun b h => by cases h; exact hq⟩

theorem does_throw (hr : ∀ a, R a a) {e : PyErr} {Q : Sim → A → Prop} (hi : I s) : Does I R (SimM.throw e : SimM A) s Q :=
  ⟨hi, hr s, fun b h => by cases h⟩

theorem does_get (hr : ∀ a, R a a) {f : Sim → A} (hi : I s) : Does I R (SimM.get f) s (fun s' a => s' = s ∧ a = f s) :=
  ⟨hi, hr s, fun b h => by cases h; exact ⟨rfl, rfl⟩⟩

theorem does_set {f : Sim → Sim} (hi : I (f s)) (hr : R s (f s)) : Does I R (SimM.set f) s (fun s' _ => s' = f s) :=
  ⟨hi, hr, fun b h => rfl⟩

theorem does_mono {m : SimM A} {Q Q' : Sim → A → Prop} (h : Does I R m s Q) (hq : ∀ s' a, I s' → R s s' → Q s' a → Q' s' a) : Does I R m s Q' :=
  ⟨h.1, h.2.1, fun a ha => hq _ _ h.1 h.2.1 (h.2.2 a ha)⟩

end

/-! ## The schedule -/

/-- The callbacks of an event. -/
def Sim.cbs (s : Sim) (ev : ℕ) : List Callback := (s.events ev).callbacks.getD []

theorem fset_same {A : Type} (f : ℕ → A) (i : ℕ) (a : A) : fset f i a i = a := by simp [fset]
theorem fset_other {A : Type} (f : ℕ → A) {i j : ℕ} (a : A) (h : j ≠ i) : fset f i a j = f j := by simp [fset, h]

theorem mem_insertEntry (e x : Entry) : ∀ l, x ∈ insertEntry e l ↔ x = e ∨ x ∈ l
  | [] => by simp [insertEntry]
  | y :: r => by
    have ih := mem_insertEntry e x r
    simp only [insertEntry]
    split
    · simp only [List.mem_cons, ih]; tauto
    · simp only [List.mem_cons]

/-- One entry comes before the other, or was scheduled before it. -/
def Entry.upTo (a b : Entry) : Prop := a.time < b.time ∨ (a.time = b.time ∧ (a.urgent = true ∨ b.urgent = false))

theorem upTo_le {a b : Entry} (h : a.upTo b) : a.time ≤ b.time := h.elim le_of_lt fun h => h.1.le

theorem upTo_trans {a b c : Entry} (h1 : a.upTo b) (h2 : b.upTo c) : a.upTo c := by
  rcases h1 with h1 | ⟨h1, h1'⟩
  · exact .inl (h1.trans_le (upTo_le h2))
  · rcases h2 with h2 | ⟨h2, h2'⟩
    · exact .inl (h1.le.trans_lt h2)
    · refine .inr ⟨h1.trans h2, ?_⟩
      rcases h1' with h1' | h1'
      · exact .inl h1'
      · rcases h2' with h2' | h2'
        · rw [h1'] at h2'; cases h2'
        · exact .inr h2'

theorem upTo_of_before {a b : Entry} (h : a.before b = true) : a.upTo b := by
  simp only [Entry.before, Bool.or_eq_true, decide_eq_true_eq, Bool.and_eq_true, Bool.not_eq_true'] at h
  rcases h with h | ⟨h, h'⟩
  · exact .inl h
  · rcases h.lt_or_eq with h | h
    · exact .inl h
    · exact .inr ⟨h, h'⟩

theorem upTo_of_not_before {a b : Entry} (h : ¬ a.before b = true) : b.upTo a := by
  simp only [Entry.before, Bool.or_eq_true, decide_eq_true_eq, Bool.and_eq_true, Bool.not_eq_true', not_or, not_and] at h
  obtain ⟨h1, h2⟩ := h
  rcases (le_of_not_gt h1).lt_or_eq with h | h
  · exact .inl h
  · have := h2 h.ge
    exact .inr ⟨h, .inl (by simpa using this.2)⟩

theorem insertEntry_sorted (e : Entry) : ∀ l, l.Pairwise Entry.upTo → (insertEntry e l).Pairwise Entry.upTo
  | [], _ => by simp [insertEntry]
  | y :: r, h => by
    have h' := List.pairwise_cons.1 h
    simp only [insertEntry]
    split
    · rename_i hb
      refine List.pairwise_cons.2 ⟨fun x hx => ?_, insertEntry_sorted e r h'.2⟩
      rcases (mem_insertEntry e x r).1 hx with rfl | hx
      · exact upTo_of_before hb
      · exact h'.1 x hx
    · rename_i hb
      refine List.pairwise_cons.2 ⟨fun x hx => ?_, h⟩
      rcases List.mem_cons.1 hx with rfl | hx
      · exact upTo_of_not_before hb
      · exact upTo_trans (upTo_of_not_before hb) (h'.1 x hx)

/-! ## The invariant -/

/-- The event is triggered and can only happen at one time; it is not urgent. -/
def Timed (s : Sim) (ev : ℕ) (t : ℚ) : Prop := (s.events ev).value = some (.ok .nothing) ∧ ∀ en ∈ s.queue, en.ev = ev → en.time = t ∧ en.urgent = false

/-- What is known of a process that waits for `ev`. -/
def PtOk (s : Sim) (ev : ℕ) : Pt → Prop
  | .localNew _ g => ∀ w, (g w).Yields GridY
  | .localWait _ e k => OnGrid e.time ∧ Timed s ev e.time ∧ ∀ w, (k w).Yields GridY
  | .extraMain _ pro => ev = pro
  | .envWait _ k => ∀ w, (k w).Yields (fun e => OnGrid e.1)
  | .envProcNew e => OnGrid e.time
  | .envProc e => OnGrid e.time ∧ Timed s ev e.time
  | _ => True

/-- Not a process that is running, and nobody is interrupted by it. -/
def Quiet (s : Sim) (x : ℕ) : Prop := x < s.next ∧ s.points x = Option.none ∧ ∀ p, .interrupt p ∉ s.cbs x

/-- An event that stops `run`, or has been processed. -/
def Excused (s : Sim) (ev : ℕ) : Prop := .stop ∈ s.cbs ev ∨ (s.events ev).callbacks = Option.none

/-- The invariant of all simulations. -/
structure Inv (s : Sim) : Prop where
  sorted : s.queue.Pairwise Entry.upTo
  ahead : ∀ en ∈ s.queue, s.now ≤ en.time
  grid : ∀ en ∈ s.queue, OnGrid en.time ∨ Excused s en.ev
  res : ∀ ev p, .resume p ∈ s.cbs ev → s.target p = ev ∧ (s.points p).isSome
  once : ∀ ev p, (s.cbs ev).count (.resume p) ≤ 1
  intr : ∀ ev p, .interrupt p ∈ s.cbs ev → (s.events ev).value = some (.error .interrupt) ∧ (∀ q, .resume q ∉ s.cbs ev) ∧ .stop ∉ s.cbs ev
  chk : ∀ ev c, .check c ∈ s.cbs ev → Quiet s c
  fresh : ∀ ev, s.next ≤ ev → (s.events ev).callbacks = Option.none ∧ (s.events ev).value = Option.none ∧ s.points ev = Option.none
  known : ∀ en ∈ s.queue, en.ev < s.next
  queued : ∀ en ∈ s.queue, (s.events en.ev).value.isSome
  live : ∀ p, (s.points p).isSome → (s.events p).value = Option.none
  wait : ∀ p pt, s.points p = some pt → PtOk s (s.target p) pt
  act : ∀ n a, (n, a) ∈ s.activate → Quiet s a
  proc : Quiet s s.procActivate
  env : Quiet s s.envActivate
  trace : ∀ x ∈ s.trace, x.1 = x.2.time ∧ OnGrid x.2.time ∧ x.2.time ≤ s.now
  order : s.trace.Pairwise (fun a b => a.2.time ≤ b.2.time)

/-- Callbacks other than those of conditions. -/
def Callback.notCheck : Callback → Bool
  | .check _ => false
  | _ => true

/-- What the code of processes does to the simulation. -/
structure Mild (s s' : Sim) : Prop where
  now : s'.now = s.now
  next : s.next ≤ s'.next
  points : ∀ p < s.next, s'.points p = s.points p
  target : ∀ p < s.next, s'.target p = s.target p
  value : ∀ ev v, (s.events ev).value = some v → (s'.events ev).value = some v
  cbs : ∀ ev < s.next, (s'.cbs ev).filter Callback.notCheck = (s.cbs ev).filter Callback.notCheck
  newres : ∀ ev p, s.next ≤ ev → .resume p ∈ s'.cbs ev → s.next ≤ p ∨ .resume p ∈ s.cbs ev
  queue : ∀ en ∈ s.queue, en ∈ s'.queue
  newq : ∀ en ∈ s'.queue, en ∈ s.queue ∨ (s.events en.ev).value = Option.none
  stops : ∀ ev, .stop ∈ s'.cbs ev ↔ .stop ∈ s.cbs ev

theorem mild_refl (s : Sim) : Mild s s :=
  ⟨rfl, le_rfl, fun _ _ => rfl, fun _ _ => rfl, fun _ _ h => h, fun _ _ => rfl, fun _ _ _ hp => .inr hp, fun _ h => h, fun _ h => .inl h, fun _ => .rfl⟩

theorem mem_of_filter {l l' : List Callback} {cb : Callback} (h : l'.filter Callback.notCheck = l.filter Callback.notCheck) (hc : cb.notCheck = true) :
    cb ∈ l' ↔ cb ∈ l := by
  have : cb ∈ l'.filter Callback.notCheck ↔ cb ∈ l.filter Callback.notCheck := by rw [h]
  simpa [List.mem_filter, hc] using this

theorem mild_trans {a b c : Sim} (h1 : Mild a b) (h2 : Mild b c) : Mild a c := by
  refine ⟨h2.now.trans h1.now, h1.next.trans h2.next, fun p hp => ?_, fun p hp => ?_, fun ev v h => h2.value ev v (h1.value ev v h), fun ev hev => ?_, fun ev p hev hp => ?_,
    fun en h => h2.queue en (h1.queue en h), fun en h => (h2.newq en h).elim (h1.newq en)
      fun hv => .inr (by_contra fun hc => by
        obtain ⟨v, hc⟩ := Option.ne_none_iff_exists'.1 hc
        rw [h1.value _ _ hc] at hv; cases hv), fun ev => (h2.stops ev).trans (h1.stops ev)⟩
  · rw [h2.points p (hp.trans_le h1.next), h1.points p hp]
  · rw [h2.target p (hp.trans_le h1.next), h1.target p hp]
  · rw [h2.cbs ev (hev.trans_le h1.next), h1.cbs ev hev]
  · by_cases hb : ev < b.next
    · exact h1.newres ev p hev ((mem_of_filter (h2.cbs ev hb) rfl).1 hp)
    · rcases h2.newres ev p (not_lt.1 hb) hp with h | h
      · exact .inl (h1.next.trans h)
      · exact h1.newres ev p hev h

theorem mild_quiet {s s' : Sim} (h : Mild s s') {x : ℕ} (hx : Quiet s x) : Quiet s' x :=
  ⟨hx.1.trans_le h.next, (h.points x hx.1).trans hx.2.1, fun p hp => hx.2.2 p ((mem_of_filter (h.cbs x hx.1) rfl).1 hp)⟩

/-! ## Elementary changes -/

/-- When a process wants to be woken. -/
def Pt.due : Pt → Option ℚ
  | .localWait _ e _ => some e.time
  | .envProc e => some e.time
  | _ => Option.none

theorem ptOk_due {s : Sim} {ev : ℕ} {pt : Pt} {t : ℚ} (h : PtOk s ev pt) (ht : pt.due = some t) : Timed s ev t := by
  cases pt <;> simp only [Pt.due, Option.some.injEq, reduceCtorEq] at ht
  · subst ht; exact h.2.1
  · subst ht; exact h.2

theorem ptOk_move {s s' : Sim} {ev : ℕ} {pt : Pt} (h : PtOk s ev pt) (ht : ∀ t, pt.due = some t → Timed s ev t → Timed s' ev t) : PtOk s' ev pt := by
  cases pt with
  | localWait n e k => exact ⟨h.1, ht _ rfl h.2.1, h.2.2⟩
  | envProc e => exact ⟨h.1, ht _ rfl h.2⟩
  | _ => exact h

theorem timed_lt {s : Sim} (h : Inv s) {ev : ℕ} {t : ℚ} (ht : Timed s ev t) : ev < s.next := by
  by_contra hc
  have := (h.fresh ev (not_lt.1 hc)).2.1
  simp [Timed, this] at ht

theorem cbs_alloc_new {s : Sim} {E : SEv} : (s.alloc E).cbs s.next = E.callbacks.getD [] := by simp [Sim.cbs, Sim.alloc, fset]
theorem cbs_alloc_old {s : Sim} {E : SEv} {ev : ℕ} (h : ev ≠ s.next) : (s.alloc E).cbs ev = s.cbs ev := by simp [Sim.cbs, Sim.alloc, fset, h]
theorem events_alloc_old {s : Sim} {E : SEv} {ev : ℕ} (h : ev ≠ s.next) : (s.alloc E).events ev = s.events ev := by simp [Sim.alloc, fset, h]
theorem events_alloc_new {s : Sim} {E : SEv} : (s.alloc E).events s.next = E := by simp [Sim.alloc, fset]

theorem mild_alloc {s : Sim} (h : Inv s) {E : SEv} (hE : ∀ p, .resume p ∉ E.callbacks.getD []) (hs : .stop ∉ E.callbacks.getD []) : Mild s (s.alloc E) := by
  refine ⟨rfl, Nat.le_succ _, fun _ _ => rfl, fun _ _ => rfl, fun ev v hv => ?_, fun ev hev => ?_, fun ev p hev hp => ?_, fun _ h => h, fun _ h => .inl h, fun ev => ?_⟩
  · have : ev ≠ s.next := by rintro rfl; rw [(h.fresh s.next le_rfl).2.1] at hv; cases hv
    rw [events_alloc_old this]; exact hv
  · rw [cbs_alloc_old (Nat.ne_of_lt hev)]
  · by_cases he : ev = s.next
    · subst he; rw [cbs_alloc_new] at hp; exact absurd hp (hE p)
    · rw [cbs_alloc_old he] at hp; exact .inr hp
  · by_cases he : ev = s.next
    · subst he; rw [cbs_alloc_new]
      exact iff_of_false hs (by simp [Sim.cbs, (h.fresh s.next le_rfl).1])
    · rw [cbs_alloc_old he]

theorem quiet_alloc {s : Sim} {E : SEv} {x : ℕ} (hx : Quiet s x) : Quiet (s.alloc E) x :=
  ⟨Nat.lt_succ_of_lt hx.1, hx.2.1, fun p hp => hx.2.2 p (by rwa [cbs_alloc_old (Nat.ne_of_lt hx.1)] at hp)⟩

/-- A new event that nobody waits for. -/
theorem inv_alloc {s : Sim} (h : Inv s) {E : SEv} (hr : ∀ p, .resume p ∉ E.callbacks.getD []) (hc : ∀ p, .check p ∉ E.callbacks.getD [])
    (hi : ∀ p, .interrupt p ∈ E.callbacks.getD [] → E.value = some (.error .interrupt) ∧ .stop ∉ E.callbacks.getD []) : Inv (s.alloc E) := by
  have hm : ∀ x, Quiet s x → Quiet (s.alloc E) x := fun x => quiet_alloc
  refine ⟨h.sorted, h.ahead, fun en hen => ?_, fun ev p hp => ?_, fun ev p => ?_, fun ev p hp => ?_, fun ev c hp => ?_, fun ev hev => ?_,
    fun en hen => (h.known en hen).trans_le (Nat.le_succ _), fun en hen => by rw [events_alloc_old (Nat.ne_of_lt (h.known en hen))]; exact h.queued en hen, fun p hp => ?_, fun p pt hp => ?_, fun n a ha => hm _ (h.act n a ha), hm _ h.proc, hm _ h.env, h.trace, h.order⟩
  · have hne := Nat.ne_of_lt (h.known en hen)
    unfold Excused; rw [cbs_alloc_old hne, events_alloc_old hne]; exact h.grid en hen
  · by_cases he : ev = s.next
    · subst he; rw [cbs_alloc_new] at hp; exact absurd hp (hr p)
    · rw [cbs_alloc_old he] at hp; exact h.res ev p hp
  · by_cases he : ev = s.next
    · subst he; rw [cbs_alloc_new, List.count_eq_zero_of_not_mem (hr p)]; omega
    · rw [cbs_alloc_old he]; exact h.once ev p
  · by_cases he : ev = s.next
    · subst he; rw [cbs_alloc_new] at hp ⊢; rw [events_alloc_new]; exact ⟨(hi p hp).1, hr, (hi p hp).2⟩
    · rw [cbs_alloc_old he] at hp ⊢; rw [events_alloc_old he]; exact h.intr ev p hp
  · by_cases he : ev = s.next
    · subst he; rw [cbs_alloc_new] at hp; exact absurd hp (hc c)
    · rw [cbs_alloc_old he] at hp; exact hm _ (h.chk ev c hp)
  · have : s.next ≤ ev := (Nat.le_succ _).trans hev
    rw [events_alloc_old (by have : s.next + 1 ≤ ev := hev; omega)]; exact h.fresh ev this
  · have hn : p ≠ s.next := by
      rintro rfl
      have : (s.points s.next).isSome := hp
      rw [(h.fresh s.next le_rfl).2.2] at this; cases this
    rw [events_alloc_old hn]; exact h.live p hp
  · show PtOk _ (s.target p) pt
    refine ptOk_move (h.wait p pt hp) fun t _ ht => ?_
    have := Nat.ne_of_lt (timed_lt h ht)
    exact ⟨by show ((s.alloc E).events (s.target p)).value = _; rw [events_alloc_old this]; exact ht.1, ht.2⟩

/-- Scheduling an event that was not triggered before. -/
theorem mild_later {s s1 : Sim} {ev : ℕ} {u : Bool} {d : ℚ} (h : Mild s s1) (hv : (s.events ev).value = Option.none) : Mild s (s1.schedule ev u d) :=
  ⟨h.now, h.next, h.points, h.target, h.value, h.cbs, h.newres, fun en hen => (mem_insertEntry _ _ _).2 (.inr (h.queue en hen)), fun en hen => by
    rcases (mem_insertEntry _ _ _).1 hen with rfl | hen
    · exact .inr hv
    · exact h.newq en hen, h.stops⟩

/-- Nobody knows when the event happens. -/
def Untimed (s : Sim) (ev : ℕ) : Prop := ∀ p pt t, s.points p = some pt → pt.due = some t → s.target p ≠ ev

theorem untimed_of_value {s : Sim} (h : Inv s) {ev : ℕ} (hv : (s.events ev).value = Option.none) : Untimed s ev := by
  rintro p pt t hp ht rfl
  have := (ptOk_due (h.wait p pt hp) ht).1
  rw [hv] at this; cases this

theorem inv_schedule {s : Sim} (h : Inv s) {ev : ℕ} {u : Bool} {d : ℚ} (hev : ev < s.next) (hd : 0 ≤ d) (hg : OnGrid (s.now + d) ∨ Excused s ev)
    (hu : Untimed s ev) (hval : (s.events ev).value.isSome) : Inv (s.schedule ev u d) := by
  refine ⟨insertEntry_sorted _ _ h.sorted, fun en hen => ?_, fun en hen => ?_, h.res, h.once, h.intr, h.chk, h.fresh, fun en hen => ?_, fun en hen => ?_, h.live, fun p pt hp => ?_,
    h.act, h.proc, h.env, h.trace, h.order⟩
  · rcases (mem_insertEntry _ _ _).1 hen with rfl | hen
    · show s.now ≤ s.now + d; linarith
    · exact h.ahead en hen
  · rcases (mem_insertEntry _ _ _).1 hen with rfl | hen
    · exact hg
    · exact h.grid en hen
  · rcases (mem_insertEntry _ _ _).1 hen with rfl | hen
    · exact hev
    · exact h.known en hen
  · rcases (mem_insertEntry _ _ _).1 hen with rfl | hen
    · exact hval
    · exact h.queued en hen
  · refine ptOk_move (h.wait p pt hp) fun t hd ht => ⟨ht.1, fun en hen he => ?_⟩
    rcases (mem_insertEntry _ _ _).1 hen with rfl | hen
    · exact absurd he.symm (hu p pt t hp hd)
    · exact ht.2 en hen he

/-- The state in which an event has got its value. -/
def Sim.valued (s : Sim) (ev : ℕ) (v : Except PyErr SVal) : Sim := { s with events := fset s.events ev { s.events ev with value := some v } }

theorem trigger_eq (s : Sim) (ev : ℕ) (v : Except PyErr SVal) : s.trigger ev v = (s.valued ev v).schedule ev false 0 := rfl

theorem cbs_valued (s : Sim) (ev : ℕ) (v : Except PyErr SVal) (x : ℕ) : (s.valued ev v).cbs x = s.cbs x := by
  by_cases h : x = ev
  · subst h; simp [Sim.cbs, Sim.valued, fset]
  · simp [Sim.cbs, Sim.valued, fset, h]

theorem mild_valued {s : Sim} {ev : ℕ} {v : Except PyErr SVal} (hv : (s.events ev).value = Option.none) : Mild s (s.valued ev v) := by
  refine ⟨rfl, le_rfl, fun _ _ => rfl, fun _ _ => rfl, fun x u hx => ?_, fun x _ => ?_, fun x p _ hp => ?_, fun _ h => h, fun _ h => .inl h, fun x => by rw [cbs_valued]⟩
  · have : x ≠ ev := by rintro rfl; rw [hv] at hx; cases hx
    simpa [Sim.valued, fset, this] using hx
  · rw [cbs_valued]
  · rw [cbs_valued] at hp; exact .inr hp

theorem inv_valued {s : Sim} (h : Inv s) {ev : ℕ} {v : Except PyErr SVal} (hv : (s.events ev).value = Option.none) (hlt : ev < s.next)
    (hp : s.points ev = Option.none) : Inv (s.valued ev v) := by
  have hm := mild_valued (v := v) hv
  refine ⟨h.sorted, h.ahead, fun en hen => ?_, fun x p hp => ?_, fun x p => ?_, fun x p hp => ?_, fun x c hp => ?_, fun x hx => ?_, h.known, fun en hen => ?_, fun p hpp => ?_,
    fun p pt hp => ?_, fun n a ha => mild_quiet hm (h.act n a ha), mild_quiet hm h.proc, mild_quiet hm h.env, h.trace, h.order⟩
  · refine (h.grid en hen).imp_right fun he => ?_
    unfold Excused; rw [cbs_valued]
    refine he.imp_right fun he => ?_
    by_cases hx : en.ev = ev
    · simpa [Sim.valued, fset, hx] using he
    · simpa [Sim.valued, fset, hx] using he
  · rw [cbs_valued] at hp; exact h.res x p hp
  · rw [cbs_valued]; exact h.once x p
  · rw [cbs_valued] at hp ⊢; exact ⟨hm.value _ _ (h.intr x p hp).1, (h.intr x p hp).2⟩
  · rw [cbs_valued] at hp; exact mild_quiet hm (h.chk x c hp)
  · have hne : x ≠ ev := by have : s.next ≤ x := hx; omega
    have := h.fresh x hx
    simpa [Sim.valued, fset, hne] using this
  · obtain ⟨u, hu⟩ := Option.isSome_iff_exists.1 (h.queued en hen)
    rw [hm.value _ _ hu]; rfl
  · have hne : p ≠ ev := by
      rintro rfl
      have : (s.points p).isSome := hpp
      rw [hp] at this; cases this
    have := h.live p hpp
    simpa [Sim.valued, fset, hne] using this
  · show PtOk _ (s.target p) pt
    refine ptOk_move (h.wait p pt hp) fun t _ ht => ⟨?_, ht.2⟩
    exact hm.value _ _ ht.1

theorem mild_trigger {s : Sim} {ev : ℕ} {v : Except PyErr SVal} (hv : (s.events ev).value = Option.none) : Mild s (s.trigger ev v) :=
  mild_later (mild_valued hv) hv

theorem inv_trigger {s : Sim} (h : Inv s) (hg : OnGrid s.now) {ev : ℕ} {v : Except PyErr SVal} (hv : (s.events ev).value = Option.none) (hlt : ev < s.next)
    (hp : s.points ev = Option.none) : Inv (s.trigger ev v) :=
  inv_schedule (inv_valued h hv hlt hp) hlt le_rfl (.inl (by rw [add_zero]; exact hg)) (untimed_of_value h hv) (by simp [Sim.valued, fset])

theorem cbs_addCallback_other {s : Sim} {ev x : ℕ} {c : Callback} (h : x ≠ ev) : (s.addCallback ev c).cbs x = s.cbs x := by
  simp [Sim.cbs, Sim.addCallback, fset, h]

theorem cbs_addCallback (s : Sim) (ev : ℕ) (c : Callback) :
    (s.addCallback ev c).cbs ev = s.cbs ev ++ [c] ∨ ((s.addCallback ev c).cbs ev = s.cbs ev) := by
  unfold Sim.cbs Sim.addCallback
  simp only [fset_same]
  cases (s.events ev).callbacks <;> simp

theorem value_addCallback (s : Sim) (ev : ℕ) (c : Callback) (x : ℕ) : ((s.addCallback ev c).events x).value = (s.events x).value := by
  by_cases h : x = ev
  · subst h; simp [Sim.addCallback, fset]
  · simp [Sim.addCallback, fset, h]

theorem mem_addCallback {s : Sim} {ev x : ℕ} {c d : Callback} (h : d ∈ (s.addCallback ev c).cbs x) : d ∈ s.cbs x ∨ (d = c ∧ x = ev) := by
  by_cases he : x = ev
  · subst he
    rcases cbs_addCallback s x c with hc | hc
    · rw [hc] at h
      simpa using h
    · rw [hc] at h; exact .inl h
  · rw [cbs_addCallback_other he] at h; exact .inl h

theorem mem_addCallback_old {s : Sim} {ev x : ℕ} {c d : Callback} (h : d ∈ s.cbs x) : d ∈ (s.addCallback ev c).cbs x := by
  by_cases he : x = ev
  · subst he
    rcases cbs_addCallback s x c with hc | hc
    · rw [hc]; exact List.mem_append_left _ h
    · rw [hc]; exact h
  · rw [cbs_addCallback_other he]; exact h

theorem none_addCallback {s : Sim} {ev x : ℕ} {c : Callback} (h : (s.events x).callbacks = Option.none) :
    ((s.addCallback ev c).events x).callbacks = Option.none := by
  by_cases he : x = ev
  · subst he; simp [Sim.addCallback, fset, h]
  · simp [Sim.addCallback, fset, he, h]

theorem fresh_addCallback {s : Sim} (h : Inv s) (ev : ℕ) (c : Callback) (x : ℕ) (hx : s.next ≤ x) :
    ((s.addCallback ev c).events x).callbacks = Option.none := by
  have := (h.fresh x hx).1
  by_cases he : x = ev
  · subst he; simp [Sim.addCallback, fset, this]
  · simp [Sim.addCallback, fset, he, this]

theorem mild_addCheck {s : Sim} {ev c : ℕ} : Mild s (s.addCallback ev (.check c)) := by
  refine ⟨rfl, le_rfl, fun _ _ => rfl, fun _ _ => rfl, fun x u hx => by rw [value_addCallback]; exact hx, fun x _ => ?_, fun x p _ hp => ?_, fun _ h => h, fun _ h => .inl h, fun x => ⟨fun hp => ?_, mem_addCallback_old⟩⟩
  · by_cases he : x = ev
    · subst he
      rcases cbs_addCallback s x (.check c) with hc | hc <;> rw [hc]
      simp [List.filter_append, Callback.notCheck]
    · rw [cbs_addCallback_other he]
  · rcases mem_addCallback hp with h | ⟨h, _⟩
    · exact .inr h
    · cases h
  · rcases mem_addCallback hp with h | ⟨h, _⟩
    · exact h
    · cases h

theorem inv_addCheck {s : Sim} (h : Inv s) {ev c : ℕ} (hq : Quiet s c) : Inv (s.addCallback ev (.check c)) := by
  have hm : Mild s (s.addCallback ev (.check c)) := mild_addCheck
  refine ⟨h.sorted, h.ahead, fun en hen => ?_, fun x p hp => ?_, fun x p => ?_, fun x p hp => ?_, fun x d hp => ?_, fun x hx => ?_, h.known, fun en hen => by rw [value_addCallback]; exact h.queued en hen, fun p hpp => ?_,
    fun p pt hp => ?_, fun n a ha => mild_quiet hm (h.act n a ha), mild_quiet hm h.proc, mild_quiet hm h.env, h.trace, h.order⟩
  · exact (h.grid en hen).imp_right (Or.imp mem_addCallback_old none_addCallback)
  · rcases mem_addCallback hp with hp | ⟨hp, _⟩
    · exact h.res x p hp
    · cases hp
  · by_cases he : x = ev
    · subst he
      rcases cbs_addCallback s x (.check c) with hc | hc <;> rw [hc]
      · simpa [List.count_append] using h.once x p
      · exact h.once x p
    · rw [cbs_addCallback_other he]; exact h.once x p
  · rcases mem_addCallback hp with hp | ⟨hp, _⟩
    · refine ⟨by rw [value_addCallback]; exact (h.intr x p hp).1, fun q hq => ?_, fun hq => ?_⟩
      · rcases mem_addCallback hq with hq | ⟨hq, _⟩
        · exact (h.intr x p hp).2.1 q hq
        · cases hq
      · rcases mem_addCallback hq with hq | ⟨hq, _⟩
        · exact (h.intr x p hp).2.2 hq
        · cases hq
    · cases hp
  · rcases mem_addCallback hp with hp | ⟨hp, _⟩
    · exact mild_quiet hm (h.chk x d hp)
    · cases hp; exact mild_quiet hm hq
  · exact ⟨fresh_addCallback h ev _ x hx, by rw [value_addCallback]; exact (h.fresh x hx).2.1, (h.fresh x hx).2.2⟩
  · rw [value_addCallback]; exact h.live p hpp
  · refine ptOk_move (h.wait p pt hp) fun t _ ht => ⟨?_, ht.2⟩
    rw [value_addCallback]; exact ht.1

/-- The state after a process has been started. -/
theorem process_eq (pt : Pt) (s : Sim) : process pt s =
    (({ s with
        events := fset (fset s.events s.next ⟨Option.none, false, some []⟩) (s.next + 1) ⟨some (.ok .nothing), false, some [.resume s.next]⟩,
        next := s.next + 2, points := fset s.points s.next (some pt), target := fset s.target s.next (s.next + 1) } : Sim).schedule (s.next + 1) true 0, .ok s.next) := rfl

/-- The new process and its first event, before it is put on the schedule. -/
def Sim.withProcess (s : Sim) (pt : Pt) : Sim :=
  { s with
    events := fset (fset s.events s.next ⟨Option.none, false, some []⟩) (s.next + 1) ⟨some (.ok .nothing), false, some [.resume s.next]⟩,
    next := s.next + 2, points := fset s.points s.next (some pt), target := fset s.target s.next (s.next + 1) }

theorem events_withProcess {s : Sim} {pt : Pt} (x : ℕ) : (s.withProcess pt).events x =
    if x = s.next + 1 then ⟨some (.ok .nothing), false, some [.resume s.next]⟩ else if x = s.next then ⟨Option.none, false, some []⟩ else s.events x := rfl

theorem events_withProcess_old {s : Sim} {pt : Pt} {x : ℕ} (h : x < s.next) : (s.withProcess pt).events x = s.events x := by
  rw [events_withProcess, if_neg (by omega), if_neg (by omega)]

theorem cbs_withProcess {s : Sim} (h : Inv s) {pt : Pt} (x : ℕ) : (s.withProcess pt).cbs x = if x = s.next + 1 then [.resume s.next] else s.cbs x := by
  unfold Sim.cbs
  rw [events_withProcess]
  split
  · rfl
  · split
    · rename_i hx; rw [hx, (h.fresh s.next le_rfl).1]; rfl
    · rfl

theorem mild_withProcess {s : Sim} (h : Inv s) {pt : Pt} : Mild s (s.withProcess pt) := by
  refine ⟨rfl, Nat.le_add_right _ 2, fun p hp => ?_, fun p hp => ?_, fun x u hx => ?_, fun x hx => ?_, fun x p hx hp => ?_, fun _ h => h, fun _ h => .inl h, fun x => ?_⟩
  · exact fset_other _ _ (Nat.ne_of_lt hp)
  · exact fset_other _ _ (Nat.ne_of_lt hp)
  · by_cases hlt : x < s.next
    · rw [events_withProcess_old hlt]; exact hx
    · rw [(h.fresh x (not_lt.1 hlt)).2.1] at hx; cases hx
  · rw [cbs_withProcess h, if_neg (by omega)]
  · rw [cbs_withProcess h] at hp
    split at hp
    · simp only [List.mem_singleton, Callback.resume.injEq] at hp; exact .inl hp.ge
    · exact .inr hp
  · rw [cbs_withProcess h]
    split
    · rename_i hx; subst hx
      exact iff_of_false (by simp) (by simp [Sim.cbs, (h.fresh (s.next + 1) (Nat.le_succ _)).1])
    · rfl

theorem inv_withProcess {s : Sim} (h : Inv s) {pt : Pt} (hpt : ∀ s ev, PtOk s ev pt) : Inv (s.withProcess pt) := by
  have hm : Mild s (s.withProcess pt) := mild_withProcess h
  have hpts : ∀ p, (s.withProcess pt).points p = if p = s.next then some pt else s.points p := fun p => rfl
  have htg : ∀ p, (s.withProcess pt).target p = if p = s.next then s.next + 1 else s.target p := fun p => rfl
  refine ⟨h.sorted, h.ahead, fun en hen => ?_, fun x p hp => ?_, fun x p => ?_, fun x p hp => ?_, fun x d hp => ?_, fun x hx => ?_,
    fun en hen => (h.known en hen).trans_le (Nat.le_add_right _ 2), fun en hen => by rw [events_withProcess_old (h.known en hen)]; exact h.queued en hen, fun p hpp => ?_,
    fun p pt' hp => ?_, fun n a ha => mild_quiet hm (h.act n a ha), mild_quiet hm h.proc, mild_quiet hm h.env, h.trace, h.order⟩
  · have := h.known en hen
    unfold Excused; rw [cbs_withProcess h, if_neg (by omega), events_withProcess_old this]; exact h.grid en hen
  · rw [cbs_withProcess h] at hp
    split at hp
    · simp only [List.mem_singleton, Callback.resume.injEq] at hp
      subst hp
      rename_i hx
      rw [htg, hpts, if_pos rfl, if_pos rfl]; exact ⟨hx.symm, rfl⟩
    · have hr := h.res x p hp
      have hne : p ≠ s.next := by
        rintro rfl
        rw [(h.fresh s.next le_rfl).2.2] at hr; exact absurd hr.2 (by simp)
      rw [htg, hpts, if_neg hne, if_neg hne]; exact hr
  · rw [cbs_withProcess h]
    split
    · rw [List.count_singleton]; split <;> omega
    · exact h.once x p
  · rw [cbs_withProcess h] at hp ⊢
    split at hp
    · simp at hp
    · rename_i hx
      rw [if_neg hx]
      exact ⟨hm.value _ _ (h.intr x p hp).1, (h.intr x p hp).2⟩
  · rw [cbs_withProcess h] at hp
    split at hp
    · simp at hp
    · exact mild_quiet hm (h.chk x d hp)
  · have hx : s.next + 2 ≤ x := hx
    have := h.fresh x (by omega)
    rw [events_withProcess, if_neg (by omega), if_neg (by omega), hpts, if_neg (by omega)]; exact this
  · rw [hpts] at hpp
    by_cases hp : p = s.next
    · rw [events_withProcess, if_neg (by omega), if_pos hp]
    · rw [if_neg hp] at hpp
      have : p < s.next := by
        by_contra hc
        rw [(h.fresh p (not_lt.1 hc)).2.2] at hpp; cases hpp
      rw [events_withProcess_old this]; exact h.live p hpp
  · rw [hpts] at hp
    rw [htg]
    by_cases he : p = s.next
    · rw [if_pos he] at hp; cases hp; exact hpt _ _
    · rw [if_neg he] at hp ⊢
      refine ptOk_move (h.wait p pt' hp) fun t _ ht => ⟨?_, ht.2⟩
      rw [events_withProcess_old (timed_lt h ht)]; exact ht.1

theorem untimed_withProcess {s : Sim} (h : Inv s) {pt : Pt} (hpt : pt.due = Option.none) : Untimed (s.withProcess pt) (s.next + 1) := by
  intro p pt' t hp ht
  have hpts : ∀ p, (s.withProcess pt).points p = if p = s.next then some pt else s.points p := fun p => rfl
  have htg : ∀ p, (s.withProcess pt).target p = if p = s.next then s.next + 1 else s.target p := fun p => rfl
  rw [hpts] at hp
  rw [htg]
  by_cases he : p = s.next
  · rw [if_pos he] at hp; cases hp; rw [hpt] at ht; cases ht
  · rw [if_neg he] at hp ⊢
    exact untimed_of_value h (h.fresh (s.next + 1) (Nat.le_succ _)).2.1 p pt' t hp ht

/-! ## Elementary operations -/

/-- The invariant while processes run. -/
def Run (s : Sim) : Prop := Inv s ∧ OnGrid s.now

theorem run_of {s s' : Sim} (h : Run s) (hi : Inv s') (hm : Mild s s') : Run s' := ⟨hi, hm.now ▸ h.2⟩

end Verif
