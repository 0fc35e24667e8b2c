import Verif.Lemmas.Awake
/-! # The process of the rules is never interrupted -/
namespace Verif
open Verif.Spec

/-- The processes of the rules: `__procprocessGenerator__`, and `__localprocess__` for the rules. -/
def Pt.own : Pt → Bool
  | .procNew | .procFirst | .procIdle | .procSpin _ | .procAgain => true
  | .localNew name _ | .localWait name _ _ => decide (name = procName)
  | _ => false

/-- `__procprocessGenerator__`. -/
def Pt.main : Pt → Bool
  | .procNew | .procFirst | .procIdle | .procSpin _ | .procAgain => true
  | _ => false

/-- The process that a process may interrupt later. -/
def Pt.ref : Pt → Option ℕ
  | .extraMain _ pro => some pro
  | .envWait pro _ => some pro
  | _ => Option.none

/-- Processes of buffers are not called as the rules. -/
def Pt.named : Pt → Prop
  | .extraNew name | .extraIdle name | .extraMain name _ | .extraCont name => name ≠ procName
  | _ => True

/-- An existing process, which is none of the rules. -/
def Meek (s : Sim) (p : ℕ) : Prop := p < s.next ∧ ∀ pt, s.points p = some pt → pt.own = false

/-- An existing event, which is not the end of process number 2. -/
def Other (s : Sim) (a : ℕ) : Prop := a < s.next ∧ a ≠ 2

/-- The event is not scheduled for later. -/
def Prompt (s : Sim) (a : ℕ) : Prop := ∀ en ∈ s.queue, en.ev = a → en.time ≤ s.now

/-- What callbacks may do. -/
def Safe (s : Sim) : Callback → Prop
  | .interrupt p => Meek s p
  | .check c => Other s c
  | _ => True

/-- Whoever is or may be interrupted is not a process of the rules. Process number 2, `__procprocessGenerator__`, never waits longer than until
the same time; it ends only with an exception, and nobody takes notice. -/
structure Tame (K : Prop) (s : Sim) : Prop where
  two : 2 < s.next
  born : ∀ p pt, s.points p = some pt → p < s.next
  known : ∀ en ∈ s.queue, en.ev < s.next
  safe : ∀ ev cb, cb ∈ s.cbs ev → Safe s cb
  extra : ∀ n p, (n, p) ∈ s.extra → Meek s p
  act : ∀ n a, (n, a) ∈ s.activate → Other s a ∧ Prompt s a
  proc : Other s s.procActivate ∧ Prompt s s.procActivate
  env : Other s s.envActivate
  refs : ∀ p pt q, s.points p = some pt → pt.ref = some q → Meek s q
  names : ∀ p pt, s.points p = some pt → pt.named
  self : Prompt s 2
  alive : ∀ pt, s.points 2 = some pt → pt.main = true ∧ s.events 2 = ⟨Option.none, false, some []⟩ ∧ Other s (s.target 2) ∧ Prompt s (s.target 2)
  dead : s.points 2 = Option.none → ∃ x l, s.events 2 = ⟨some (.error x), false, l⟩ ∧ (l = some [] ∨ (K ∧ l = Option.none))

/-- Processes that were there are as they were; what was there is not scheduled for later. -/
structure Grows (s s' : Sim) : Prop where
  now : s'.now = s.now
  next : s.next ≤ s'.next
  points : ∀ p, p < s.next → s'.points p = s.points p
  target : ∀ p, p < s.next → s'.target p = s.target p
  two : 2 < s.next → s'.events 2 = s.events 2
  newq : ∀ en ∈ s'.queue, en ∈ s.queue ∨ (en.ev < s'.next ∧ (s.next ≤ en.ev ∨ en.time = s.now))

theorem grows_refl (s : Sim) : Grows s s := ⟨rfl, le_rfl, fun _ _ => rfl, fun _ _ => rfl, fun _ => rfl, fun _ h => .inl h⟩
theorem grows_trans (a b c : Sim) (h1 : Grows a b) (h2 : Grows b c) : Grows a c :=
  ⟨h2.now.trans h1.now, h1.next.trans h2.next, fun p hp => (h2.points p (hp.trans_le h1.next)).trans (h1.points p hp),
    fun p hp => (h2.target p (hp.trans_le h1.next)).trans (h1.target p hp), fun h => (h2.two (h.trans_le h1.next)).trans (h1.two h), fun en hen => by
      rcases h2.newq en hen with h | ⟨h, h'⟩
      · exact (h1.newq en h).imp_right fun h => ⟨h.1.trans_le h2.next, h.2⟩
      · exact .inr ⟨h, h'.imp (h1.next.trans ·) (·.trans h1.now)⟩⟩

variable {K : Prop} {s s' : Sim} {p : ℕ} {A B : Type}

theorem meek_grows (hg : Grows s s') (h : Meek s p) : Meek s' p := ⟨h.1.trans_le hg.next, fun pt hp => h.2 pt (by rw [← hg.points p h.1]; exact hp)⟩

theorem other_grows (hg : Grows s s') (h : Other s p) : Other s' p := ⟨h.1.trans_le hg.next, h.2⟩

theorem prompt_grows (hg : Grows s s') (hl : p < s.next) (h : Prompt s p) : Prompt s' p := fun en hen he => by
  rw [hg.now]
  rcases hg.newq en hen with h1 | ⟨_, h1 | h1⟩
  · exact h en h1 he
  · omega
  · exact h1.le

theorem safe_grows (hg : Grows s s') {cb : Callback} (h : Safe s cb) : Safe s' cb := by
  cases cb with
  | interrupt p => exact meek_grows hg h
  | check c => exact other_grows hg h
  | _ => trivial

/-- The general form of changes. -/
theorem tame_move (h : Tame K s) (hg : Grows s s') (hc : ∀ ev cb, cb ∈ s'.cbs ev → cb ∈ s.cbs ev ∨ Safe s' cb) (hx : ∀ n q, (n, q) ∈ s'.extra → (n, q) ∈ s.extra ∨ Meek s' q)
    (ha : ∀ n a, (n, a) ∈ s'.activate → (n, a) ∈ s.activate ∨ (Other s' a ∧ Prompt s' a)) (hpr : s'.procActivate = s.procActivate ∨ (Other s' s'.procActivate ∧ Prompt s' s'.procActivate))
    (he : s'.envActivate = s.envActivate ∨ Other s' s'.envActivate)
    (hp : ∀ q pt, s'.points q = some pt → s.points q = some pt ∨ (q < s'.next ∧ pt.ref = Option.none ∧ pt.named)) : Tame K s' := by
  have h2 := hg.two h.two
  refine ⟨h.two.trans_le hg.next, fun q pt hq => ?_, fun en hen => ?_, fun ev cb hm => ?_, fun n q hm => ?_, fun n a hm => ?_, ?_, ?_, fun q pt r hq hr => ?_, fun q pt hq => ?_, prompt_grows hg h.two h.self, fun pt hq => ?_, fun hq => ?_⟩
  · rcases hp q pt hq with h1 | h1
    · exact (h.born q pt h1).trans_le hg.next
    · exact h1.1
  · rcases hg.newq en hen with h1 | h1
    · exact (h.known en h1).trans_le hg.next
    · exact h1.1
  · rcases hc ev cb hm with h1 | h1
    · exact safe_grows hg (h.safe ev cb h1)
    · exact h1
  · rcases hx n q hm with h1 | h1
    · exact meek_grows hg (h.extra n q h1)
    · exact h1
  · rcases ha n a hm with h1 | h1
    · exact ⟨other_grows hg (h.act n a h1).1, prompt_grows hg (h.act n a h1).1.1 (h.act n a h1).2⟩
    · exact h1
  · rcases hpr with h1 | h1
    · rw [h1]; exact ⟨other_grows hg h.proc.1, prompt_grows hg h.proc.1.1 h.proc.2⟩
    · exact h1
  · rcases he with h1 | h1
    · rw [h1]; exact other_grows hg h.env
    · exact h1
  · rcases hp q pt hq with h1 | ⟨_, h1, _⟩
    · exact meek_grows hg (h.refs q pt r h1 hr)
    · rw [h1] at hr; cases hr
  · rcases hp q pt hq with h1 | h1
    · exact h.names q pt h1
    · exact h1.2.2
  · rw [hg.points 2 h.two] at hq
    obtain ⟨a1, a2, a3, a4⟩ := h.alive pt hq
    rw [h2, hg.target 2 h.two]
    exact ⟨a1, a2, other_grows hg a3, prompt_grows hg a3.1 a4⟩
  · rw [hg.points 2 h.two] at hq
    rw [h2]
    exact h.dead hq

/-- Nothing that matters here changes, but for events other than number 2, and the schedule. -/
theorem tame_same (h : Tame K s) (hg : Grows s s') (h1 : s'.points = s.points) (h3 : s'.extra = s.extra) (h4 : s'.activate = s.activate) (h5 : s'.procActivate = s.procActivate)
    (h6 : s'.envActivate = s.envActivate) (hc : ∀ ev cb, cb ∈ s'.cbs ev → cb ∈ s.cbs ev ∨ Safe s' cb) : Tame K s' :=
  tame_move h hg hc (fun n q hm => .inl (h3 ▸ hm)) (fun n q hm => .inl (h4 ▸ hm)) (.inl h5) (.inl h6) (fun q pt hq => .inl (by rw [← h1]; exact hq))

theorem grows_same (h0 : s'.now = s.now) (hn : s'.next = s.next) (hp : s'.points = s.points) (ht : s'.target = s.target) (he : s'.events = s.events) (hq : s'.queue = s.queue) : Grows s s' :=
  ⟨h0, hn.ge, fun q _ => by rw [hp], fun q _ => by rw [ht], fun _ => by rw [he], fun en h => .inl (hq ▸ h)⟩

theorem cbs_trigger (s : Sim) (ev : ℕ) (v : Except PyErr SVal) (x : ℕ) : (s.trigger ev v).cbs x = s.cbs x := by
  show ((fset s.events ev _ x).callbacks).getD [] = _
  by_cases hx : x = ev
  · subst hx; rw [fset_same]; rfl
  · rw [fset_other _ _ hx]; rfl

theorem grows_trigger {ev : ℕ} {v : Except PyErr SVal} (ho : Other s ev) : Grows s (s.trigger ev v) :=
  ⟨rfl, le_rfl, fun _ _ => rfl, fun _ _ => rfl, fun _ => fset_other _ _ ho.2.symm, fun en hen => by
    rcases (mem_insertEntry _ _ _).1 hen with rfl | h
    · exact .inr ⟨ho.1, .inr (add_zero _)⟩
    · exact .inl h⟩

theorem tame_trigger {ev : ℕ} {v : Except PyErr SVal} (h : Tame K s) (ho : Other s ev) : Tame K (s.trigger ev v) :=
  tame_same h (grows_trigger ho) rfl rfl rfl rfl rfl fun x cb hm => by rw [cbs_trigger] at hm; exact .inl hm

theorem grows_alloc (s : Sim) (E : SEv) : Grows s (s.alloc E) :=
  ⟨rfl, Nat.le_succ _, fun _ _ => rfl, fun _ _ => rfl, fun h => events_alloc_old (Nat.ne_of_lt h), fun _ h => .inl h⟩

theorem tame_alloc {E : SEv} (h : Tame K s) (hE : ∀ cb, cb ∈ E.callbacks.getD [] → Safe (s.alloc E) cb) : Tame K (s.alloc E) := by
  refine tame_same h (grows_alloc s E) rfl rfl rfl rfl rfl (fun ev cb hm => ?_)
  by_cases he : ev = s.next
  · subst he; rw [cbs_alloc_new] at hm; exact .inr (hE cb hm)
  · rw [cbs_alloc_old he] at hm; exact .inl hm

theorem grows_timer (s : Sim) (E : SEv) (u : Bool) (d : ℚ) : Grows s ((s.alloc E).schedule s.next u d) :=
  ⟨rfl, Nat.le_succ _, fun _ _ => rfl, fun _ _ => rfl, fun h => events_alloc_old (Nat.ne_of_lt h), fun en hen => by
    rcases (mem_insertEntry _ _ _).1 hen with rfl | h
    · exact .inr ⟨Nat.lt_succ_self _, .inl le_rfl⟩
    · exact .inl h⟩

theorem tame_timer {E : SEv} {u : Bool} {d : ℚ} (h : Tame K s) (hE : ∀ cb, cb ∈ E.callbacks.getD [] → Safe ((s.alloc E).schedule s.next u d) cb) : Tame K ((s.alloc E).schedule s.next u d) := by
  refine tame_same h (grows_timer s E u d) rfl rfl rfl rfl rfl (fun ev cb hm => ?_)
  change cb ∈ (s.alloc E).cbs ev at hm
  by_cases he : ev = s.next
  · subst he; rw [cbs_alloc_new] at hm; exact .inr (hE cb hm)
  · rw [cbs_alloc_old he] at hm; exact .inl hm

theorem other_new (h : Tame K s) (E : SEv) : Other (s.alloc E) s.next := ⟨Nat.lt_succ_self _, (Nat.ne_of_lt h.two).symm⟩

theorem grows_addCallback {ev : ℕ} {c : Callback} (ho : Other s ev) : Grows s (s.addCallback ev c) :=
  ⟨rfl, le_rfl, fun _ _ => rfl, fun _ _ => rfl, fun _ => fset_other _ _ ho.2.symm, fun _ h => .inl h⟩

theorem tame_addCallback {ev : ℕ} {c : Callback} (h : Tame K s) (ho : Other s ev) (hc : Safe s c) : Tame K (s.addCallback ev c) :=
  tame_same h (grows_addCallback ho) rfl rfl rfl rfl rfl fun x cb hm => by
    rcases mem_addCallback hm with hm | ⟨hm, _⟩
    · exact .inl hm
    · subst hm; exact .inr (safe_grows (grows_addCallback ho) hc)

theorem mem_drop {ev x : ℕ} {c d : Callback} (h : d ∈ (s.dropCallback ev c).cbs x) : d ∈ s.cbs x := by
  change d ∈ ((fset s.events ev _ x).callbacks).getD [] at h
  by_cases hx : x = ev
  · subst hx
    rw [fset_same] at h
    unfold Sim.cbs
    cases hc : (s.events x).callbacks with
    | none => rw [hc] at h; exact absurd h (by simp)
    | some l => rw [hc] at h; exact List.mem_of_mem_erase h
  · rw [fset_other _ _ hx] at h; exact h

theorem tame_two (h : Tame K s) : (s.events 2).callbacks = some [] ∨ (s.events 2).callbacks = Option.none := by
  cases hp : s.points 2 with
  | some pt => rw [(h.alive pt hp).2.1]; exact .inl rfl
  | none =>
    obtain ⟨x, l, h1, h2⟩ := h.dead hp
    rw [h1]; exact h2.imp_right And.right

theorem tame_drop {ev : ℕ} {c : Callback} (h : Tame K s) : Tame K (s.dropCallback ev c) := by
  refine tame_same h ⟨rfl, le_rfl, fun _ _ => rfl, fun _ _ => rfl, fun _ => ?_, fun _ h => .inl h⟩ rfl rfl rfl rfl rfl fun _ _ hm => .inl (mem_drop hm)
  show fset s.events ev _ 2 = _
  by_cases he : ev = 2
  · subst he
    rw [fset_same]
    have := tame_two h
    rcases hE : s.events 2 with ⟨v, d, l⟩
    rw [hE] at this
    rcases this with h1 | h1 <;> (dsimp only at h1 ⊢; rw [h1]; rfl)
  · exact fset_other _ _ (Ne.symm he)

theorem cbs_defuse (s : Sim) (ev x : ℕ) : (s.defuse ev).cbs x = s.cbs x := by
  show ((fset s.events ev _ x).callbacks).getD [] = _
  by_cases hx : x = ev
  · subst hx; rw [fset_same]; rfl
  · rw [fset_other _ _ hx]; rfl

theorem tame_defuse {ev : ℕ} (h : Tame K s) (he : ev ≠ 2) : Tame K (s.defuse ev) :=
  tame_same h ⟨rfl, le_rfl, fun _ _ => rfl, fun _ _ => rfl, fun _ => fset_other _ _ he.symm, fun _ h => .inl h⟩ rfl rfl rfl rfl rfl
    fun x p hm => by rw [cbs_defuse] at hm; exact .inl hm

/-! ## Code -/

/-- `Does` for this invariant. -/
abbrev Tames (K : Prop) (m : SimM A) (s : Sim) (Q : Sim → A → Prop) : Prop := Does (Tame K) Grows m s Q

/-- How a process goes on, which was at some place before. -/
structure TameRes (o m : Bool) (s : Sim) (r : Res) : Prop where
  wait : ∀ ev pt, r = .wait ev pt → Other s ev ∧ (o = false → pt.own = false) ∧ pt.main = m ∧ (∀ q, pt.ref = some q → Meek s q) ∧ pt.named ∧ (m = true → Prompt s ev)
  done : ∀ v, r = .done v → m = false

theorem tames_bind {m : SimM A} {f : A → SimM B} {Q : Sim → A → Prop} {Q' : Sim → B → Prop} (hm : Tames K m s Q)
    (hf : ∀ a s', Tame K s' → Grows s s' → Q s' a → Tames K (f a) s' Q') : Tames K (m >>= f) s Q' := does_bind grows_trans hm hf

theorem tames_pure {a : A} {Q : Sim → A → Prop} (h : Tame K s) (hq : Q s a) : Tames K (pure a) s Q := does_pure grows_refl h hq

theorem tames_throw {e : PyErr} {Q : Sim → A → Prop} (h : Tame K s) : Tames K (SimM.throw e : SimM A) s Q := does_throw grows_refl h

theorem tames_get {f : Sim → A} (h : Tame K s) : Tames K (SimM.get f) s (fun s' a => s' = s ∧ a = f s) := does_get grows_refl h

/-- Changes of other parts of the state. -/
def Aside (s s' : Sim) : Prop := s'.now = s.now ∧ s'.next = s.next ∧ s'.points = s.points ∧ s'.target = s.target ∧ s'.events = s.events ∧ s'.queue = s.queue ∧ s'.extra = s.extra ∧
  s'.activate = s.activate ∧ s'.procActivate = s.procActivate ∧ s'.envActivate = s.envActivate

theorem grows_aside (h : Aside s s') : Grows s s' := by
  obtain ⟨h0, h1, h2, h3, h4, h5, _⟩ := h
  exact grows_same h0 h1 h2 h3 h4 h5

theorem tame_aside (h : Tame K s) (ha : Aside s s') : Tame K s' := by
  obtain ⟨h0, h1, h2, h3, h4, h5, h6, h7, h8, h9⟩ := ha
  exact tame_same h (grows_same h0 h1 h2 h3 h4 h5) h2 h6 h7 h8 h9 fun ev cb hm => by unfold Sim.cbs at hm ⊢; rw [h4] at hm; exact .inl hm

theorem tames_quiet {f : Sim → Sim} (h : Tame K s) (hf : ∀ s : Sim, Aside s (f s)) : Tames K (SimM.set f) s (fun _ _ => True) :=
  ⟨tame_aside h (hf s), grows_aside (hf s), fun _ _ => trivial⟩

theorem tames_ite {b : Prop} [Decidable b] {m n : SimM A} {Q : Sim → A → Prop} (hm : b → Tames K m s Q) (hn : ¬ b → Tames K n s Q) :
    Tames K (if b then m else n) s Q := by
  split
  · exact hm ‹_›
  · exact hn ‹_›

theorem prompt_new (h : Tame K s) : Prompt s s.next := fun en hen he => absurd (h.known en hen) (by omega)

theorem tames_newEvent (h : Tame K s) : Tames K newEvent s (fun s' a => Other s' a ∧ Prompt s' a) := by
  refine ⟨tame_alloc h (by simp), grows_alloc _ _, fun a ha => ?_⟩
  obtain rfl : s.next = a := by simpa [newEvent] using ha
  exact ⟨other_new h _, prompt_new h⟩

theorem tames_succeed {ev : ℕ} (h : Tame K s) (ho : Other s ev) : Tames K (succeed ev) s (fun _ _ => True) := by
  unfold Tames Does succeed
  split
  · exact ⟨h, grows_refl _, fun _ _ => trivial⟩
  · exact ⟨tame_trigger h ho, grows_trigger ho, fun _ _ => trivial⟩

theorem tames_timeout {d : ℚ} (h : Tame K s) : Tames K (timeout d) s (fun s' a => Other s' a ∧ (d = 0 → Prompt s' a)) := by
  unfold Tames Does timeout
  split
  · exact ⟨h, grows_refl _, by simp⟩
  · refine ⟨tame_timer h (by simp), grows_timer _ _ _ _, fun a ha => ?_⟩
    obtain rfl : s.next = a := by simpa using ha
    refine ⟨other_new h ⟨Option.none, false, Option.none⟩, fun hd en hen he => ?_⟩
    subst hd
    rcases (mem_insertEntry _ _ _).1 hen with rfl | hen
    · exact (add_zero _).le
    · exact absurd (h.known en hen) (by omega)

theorem tames_process {pt : Pt} (h : Tame K s) (hr : pt.ref = Option.none) (hn : pt.named) : Tames K (process pt) s (fun s' a => Other s' a ∧ Prompt s' a ∧ (pt.own = false → Meek s' a)) := by
  unfold Tames Does process
  dsimp only
  set s1 := s.alloc ⟨Option.none, false, some []⟩ with hs1
  have h1 : Tame K s1 := tame_alloc h (by simp)
  have g1 : Grows s s1 := grows_alloc _ _
  set s2 := (s1.alloc ⟨some (.ok .nothing), false, some [.resume s.next]⟩).schedule s1.next true 0 with hs2
  have h2 : Tame K s2 := tame_timer h1 (by simp [Safe])
  have g2 : Grows s1 s2 := grows_timer _ _ _ _
  have g12 := grows_trans _ _ _ g1 g2
  have hnext : s2.next = s.next + 2 := rfl
  set s3 : Sim := { s2 with points := fset s2.points s.next (some pt), target := fset s2.target s.next s1.next } with hs3
  have g3 : Grows s s3 := ⟨g12.now, g12.next, fun q hq => (fset_other _ _ (Nat.ne_of_lt hq)).trans (g12.points q hq), fun q hq => (fset_other _ _ (Nat.ne_of_lt hq)).trans (g12.target q hq), g12.two, g12.newq⟩
  have hcb : ∀ ev cb, cb ∈ s3.cbs ev → cb ∈ s.cbs ev ∨ cb = .resume s.next := fun ev cb hm => by
    change cb ∈ (s1.alloc _).cbs ev at hm
    by_cases he : ev = s1.next
    · subst he; rw [cbs_alloc_new] at hm; right; simpa using hm
    · rw [cbs_alloc_old he, hs1] at hm
      by_cases he' : ev = s.next
      · subst he'; rw [cbs_alloc_new] at hm; simp at hm
      · rw [cbs_alloc_old he'] at hm; exact .inl hm
  have h3 : Tame K s3 := by
    refine tame_move h g3 (fun ev cb hm => (hcb ev cb hm).imp_right fun h => by subst h; trivial) (fun _ _ h => .inl h) (fun _ _ h => .inl h) (.inl rfl) (.inl rfl) fun q pt' hq => ?_
    change fset _ _ _ _ = _ at hq
    by_cases he : q = s.next
    · subst he; rw [fset_same] at hq; cases hq; exact .inr ⟨by show _ < s2.next; omega, hr, hn⟩
    · rw [fset_other _ _ he] at hq; exact .inl hq
  refine ⟨h3, g3, fun a ha => ?_⟩
  obtain rfl : s.next = a := by simpa using ha
  refine ⟨⟨by show _ < s2.next; omega, (Nat.ne_of_lt h.two).symm⟩, fun en hen he => ?_, fun ho => ⟨by show _ < s2.next; omega, fun pt' hq => ?_⟩⟩
  · rcases (mem_insertEntry _ _ _).1 hen with rfl | hen
    · exact (add_zero _).le
    · exact absurd (h.known en hen) (by omega)
  · change fset _ _ _ _ = _ at hq
    rw [fset_same] at hq; cases hq; exact ho

theorem tames_interrupt {q : ℕ} (h : Tame K s) (hq : Meek s q) : Tames K (interruptProcess q) s (fun _ _ => True) := by
  unfold Tames Does interruptProcess
  split
  · exact ⟨h, grows_refl _, fun _ _ => trivial⟩
  · refine ⟨tame_timer h fun cb hcb => ?_, grows_timer _ _ _ _, fun _ _ => trivial⟩
    have : cb = .interrupt q := by simpa using hcb
    subst this
    exact meek_grows (grows_timer _ _ _ _) hq

theorem tames_anyOf {a b : ℕ} (h : Tame K s) (ha : Other s a) (hb : Other s b) : Tames K (anyOf a b) s Other := by
  unfold Tames Does anyOf
  dsimp only
  set s1 := s.alloc ⟨Option.none, false, some [.build s.next a b]⟩ with hs1
  have h1 : Tame K s1 := tame_alloc h (by simp [Safe])
  have g1 : Grows s s1 := grows_alloc _ _
  have o1 : Other s1 s.next := other_new h _
  have key : ∀ (t : Sim) (ev : ℕ), Tame K t → Other t ev → Other t s.next →
      Tame K (if t.processed ev then (if t.triggered s.next then t else t.trigger s.next (.ok .nothing)) else t.addCallback ev (.check s.next)) ∧
      Grows t (if t.processed ev then (if t.triggered s.next then t else t.trigger s.next (.ok .nothing)) else t.addCallback ev (.check s.next)) := by
    intro t ev ht he ho
    split
    · split
      · exact ⟨ht, grows_refl _⟩
      · exact ⟨tame_trigger ht ho, grows_trigger ho⟩
    · exact ⟨tame_addCallback ht he ho, grows_addCallback he⟩
  obtain ⟨h2, g2⟩ := key s1 a h1 (other_grows g1 ha) o1
  have g12 := grows_trans _ _ _ g1 g2
  obtain ⟨h3, g3⟩ := key _ b h2 (other_grows g12 hb) (other_grows g2 o1)
  refine ⟨h3, grows_trans _ _ _ g12 g3, fun x hx => ?_⟩
  obtain rfl : s.next = x := by simpa using hx
  exact other_grows (grows_trans _ _ _ g2 g3) o1

theorem tames_activateProc {e : Ev} (h : Tame K s) : Tames K (activateProc e) s (fun _ _ => True) := by
  rcases activateProc_cases e with he | he <;> rw [he]
  · exact tames_pure h trivial
  · unfold Tames Does
    dsimp only
    split
    · exact ⟨h, grows_refl _, fun _ _ => trivial⟩
    · exact tames_succeed h h.proc.1

theorem tames_print {e : Ev} (h : Tame K s) : Tames K (printEvent e) s (fun _ _ => True) := by
  rcases printEvent_cases e with ⟨_, he⟩ | ⟨_, he⟩ <;> rw [he]
  · exact tames_pure h trivial
  · exact tames_quiet h fun _ => ⟨rfl, rfl, rfl, rfl, rfl, rfl, rfl, rfl, rfl, rfl⟩

theorem tames_w (h : Tame K s) {f : Sim → Mach} : Tames K (SimM.set (fun s => { s with w := f s })) s (fun _ _ => True) := tames_quiet h fun _ => ⟨rfl, rfl, rfl, rfl, rfl, rfl, rfl, rfl, rfl, rfl⟩

theorem tames_env (h : Tame K s) : Tames K envInteraction s (fun _ _ => True) := by
  unfold Tames envInteraction Does
  dsimp only
  cases s.w.env with
  | none => exact ⟨h, grows_refl _, fun _ _ => trivial⟩
  | some env =>
    dsimp only
    split
    · exact tames_bind (tames_succeed h h.env) fun _ s1 h1 _ _ => tames_w (f := fun s => { s.w with interaction := [] }) h1
    · exact tames_w (f := fun s => { s.w with interaction := [] }) h

theorem tameRes_done {b : Bool} {v : SVal} : TameRes b false s (.done v) := ⟨fun ev pt he => (by cases he), fun _ _ => rfl⟩

theorem tameRes_wait {o m : Bool} {ev : ℕ} {pt : Pt} (h1 : Other s ev) (h2 : o = false → pt.own = false) (h3 : pt.main = m) (h4 : ∀ q, pt.ref = some q → Meek s q) (h5 : pt.named)
    (h6 : m = true → Prompt s ev) : TameRes o m s (.wait ev pt) := ⟨fun ev' pt' he => by cases he; exact ⟨h1, h2, h3, h4, h5, h6⟩, fun v he => by cases he⟩

theorem tames_localRun {name : String} {o : Out Mach YV Unit} (h : Tame K s) : Tames K (localRun name o) s (TameRes (decide (name = procName)) false) := by
  cases o with
  | yield w y k =>
    cases y with
    | ev e =>
      exact tames_bind (tames_w (f := fun _ => w) h) fun _ s1 h1 _ _ => tames_bind (tames_get h1) fun now s2 h2 _ _ => tames_bind (tames_timeout h2) fun t s3 h3 _ ho =>
        tames_pure h3 (tameRes_wait ho.1 (fun h => h) rfl (fun _ h => by cases h) trivial (by simp))
    | cont d => exact tames_bind (tames_w (f := fun _ => w) h) fun _ s1 h1 _ _ => tames_pure h1 tameRes_done
    | procs => exact tames_bind (tames_w (f := fun _ => w) h) fun _ s1 h1 _ _ => tames_pure h1 tameRes_done
    | nothing => exact tames_bind (tames_w (f := fun _ => w) h) fun _ s1 h1 _ _ => tames_pure h1 tameRes_done
  | ret w r => exact tames_bind (tames_w (f := fun _ => w) h) fun _ s1 h1 _ _ => tames_pure h1 tameRes_done
  | raise w x => exact tames_bind (tames_w (f := fun _ => w) h) fun _ s1 h1 _ _ => tames_throw h1

theorem tames_localResume {name : String} {e : Ev} {k : Mach → Out Mach YV Unit} {x : Except PyErr SVal} (h : Tame K s) :
    Tames K (localResume name e k x) s (TameRes (decide (name = procName)) false) := by
  rcases x with x | v
  · by_cases hi : x = .interrupt
    · subst hi; exact tames_pure h tameRes_done
    · have : localResume name e k (.error x) = .throw x := by cases x <;> first | rfl | exact absurd rfl hi
      rw [this]; exact tames_throw h
  · exact tames_bind (tames_print h) fun _ s1 h1 _ _ => tames_bind (tames_activateProc h1) fun _ s2 h2 _ _ => tames_bind (tames_env h2) fun _ s3 h3 _ _ =>
      tames_bind (tames_get h3) fun w s4 h4 _ _ => tames_localRun h4

theorem tames_activateOf {name : String} (h : Tame K s) : Tames K (activateOf name) s Other := by
  unfold Tames Does activateOf
  cases hl : alook name s.activate with
  | none => exact ⟨h, grows_refl _, by simp⟩
  | some a => exact ⟨h, grows_refl _, fun b hb => by cases hb; exact (h.act name a (alook_mem hl)).1⟩

theorem tames_renew {name : String} (h : Tame K s) : Tames K (renewActivate name) s Other := by
  unfold renewActivate
  refine tames_bind (tames_newEvent h) fun a s1 h1 _ ho => ?_
  have hg : Grows s1 { s1 with activate := aset name a s1.activate } := grows_same rfl rfl rfl rfl rfl rfl
  refine tames_bind (Q := fun s' _ => Other s' a) ⟨?_, hg, fun _ _ => other_grows hg ho.1⟩ fun _ s2 h2 _ ho2 => tames_pure h2 ho2
  refine tame_move h1 hg (fun _ _ h => .inl h) (fun _ _ h => .inl h) (fun n b hn => ?_) (.inl rfl) (.inl rfl) (fun _ _ h => .inl h)
  rcases aset_mem hn with hn | hn
  · cases hn; exact .inr ⟨other_grows hg ho.1, prompt_grows hg ho.1.1 ho.2⟩
  · exact .inl hn

theorem tames_setStarted {l : Sim → List PItem} (h : Tame K s) : Tames K (SimM.set (fun s => s.setStarted (l s))) s (fun _ _ => True) :=
  tames_quiet h fun s => by unfold Sim.setStarted; cases s.started <;> exact ⟨rfl, rfl, rfl, rfl, rfl, rfl, rfl, rfl, rfl, rfl⟩

theorem tames_extraLoop {C : Cfg} {name : String} (h : Tame K s) (hn : name ≠ procName) : Tames K (extraLoop C name) s (TameRes false false) := by
  unfold extraLoop
  refine tames_bind (tames_get h) fun l s1 h1 _ _ => ?_
  have hidle : ∀ {s2 : Sim} {a : ℕ}, Other s2 a → TameRes false false s2 (.wait a (.extraIdle name)) := fun ho => tameRes_wait ho (fun _ => rfl) rfl (fun _ h => by cases h) hn (by simp)
  cases takeFor name l with
  | error x => exact tames_throw h1
  | ok o =>
    rcases o with _ | ⟨⟨i, d⟩, rest⟩
    · refine tames_bind (tames_quiet h1 fun _ => ⟨rfl, rfl, rfl, rfl, rfl, rfl, rfl, rfl, rfl, rfl⟩) fun _ s2 h2 _ _ => ?_
      refine tames_bind (tames_activateOf h2) fun a s3 h3 _ ho => ?_
      refine tames_bind (tames_get h3) fun gone s4 h4 g4 hg => tames_ite (fun _ => ?_) fun _ => tames_pure h4 (hidle (other_grows g4 ho))
      exact tames_bind (tames_renew h4) fun a' s5 h5 _ ho => tames_pure h5 (hidle ho)
    · refine tames_bind (tames_setStarted (l := fun _ => rest) h1) fun _ s2 h2 _ _ => ?_
      refine tames_bind (tames_activateOf h2) fun a s3 h3 _ ho => ?_
      refine tames_bind (tames_get h3) fun busy s4 h4 g4 _ => ?_
      have hrest : ∀ {s5 : Sim}, Tame K s5 → Tames K (do let pro ← process (.localNew name (Desc.run C d)); return .wait pro (.extraMain name pro) : SimM Res) s5 (TameRes false false) := fun h5 =>
        tames_bind (tames_process h5 rfl trivial) fun pro s6 h6 _ ho =>
          tames_pure h6 (tameRes_wait ho.1 (fun _ => rfl) rfl (fun q hq => by cases hq; exact ho.2.2 (by simp [Pt.own, hn])) hn (by simp))
      dsimp only
      exact tames_ite (fun _ => hrest h4) fun _ => tames_bind (tames_succeed h4 (other_grows g4 ho)) fun _ s5 h5 _ _ => hrest h5

theorem tames_extraAfterMain {C : Cfg} {name : String} {pro : ℕ} {x : Except PyErr SVal} (h : Tame K s) (hn : name ≠ procName) (hp : Meek s pro) :
    Tames K (extraAfterMain C name pro x) s (TameRes false false) := by
  rcases x with x | v
  · by_cases hi : x = .interrupt
    · subst hi
      refine tames_bind (tames_get h) fun over s1 h1 g1 _ => ?_
      dsimp only
      exact tames_ite (fun _ => tames_extraLoop h1 hn) fun _ => tames_bind (tames_interrupt h1 (meek_grows g1 hp)) fun _ s2 h2 _ _ => tames_extraLoop h2 hn
    · have : extraAfterMain C name pro (.error x) = .throw x := by cases x <;> first | rfl | exact absurd rfl hi
      rw [this]; exact tames_throw h
  · cases v with
    | cont d =>
      exact tames_bind (tames_process h rfl trivial) fun pro s6 h6 _ ho => tames_pure h6 (tameRes_wait ho.1 (fun _ => rfl) rfl (fun _ h => by cases h) hn (by simp))
    | nothing => exact tames_extraLoop h hn
    | procs => exact tames_extraLoop h hn

theorem tames_extraAfterCont {C : Cfg} {name : String} {x : Except PyErr SVal} (h : Tame K s) (hn : name ≠ procName) : Tames K (extraAfterCont C name x) s (TameRes false false) := by
  rcases x with x | v
  · by_cases hi : x = .interrupt
    · subst hi; exact tames_extraLoop h hn
    · have : extraAfterCont C name (.error x) = .throw x := by cases x <;> first | rfl | exact absurd rfl hi
      rw [this]; exact tames_throw h
  · exact tames_extraLoop h hn

theorem tames_interruptExtra {name : String} (h : Tame K s) : Tames K (interruptExtra name) s (fun _ _ => True) := by
  unfold Tames Does interruptExtra
  cases hl : alook name s.extra with
  | none => exact ⟨h, grows_refl _, fun _ _ => trivial⟩
  | some q => exact tames_interrupt h (h.extra name q (alook_mem hl))

theorem tames_interruptibles {f : Sim → List (String × ℕ)} (h : Tame K s) : Tames K (SimM.set (fun s => { s with interruptibles := f s })) s (fun _ _ => True) :=
  tames_quiet h fun _ => ⟨rfl, rfl, rfl, rfl, rfl, rfl, rfl, rfl, rfl, rfl⟩

theorem tames_notify {x : PItem} (h : Tame K s) : Tames K (notify x) s (fun _ _ => True) := by
  cases x with
  | procedural => exact tames_throw h
  | gen name i d =>
    refine tames_bind (tames_activateOf h) fun a s1 h1 _ ho => ?_
    refine tames_bind (tames_get h1) fun busy s2 h2 g2 _ => ?_
    refine tames_ite (fun _ => ?_) fun _ => ?_
    · refine tames_bind (tames_get h2) fun old s3 h3 _ _ => ?_
      cases old with
      | none => exact tames_pure h3 trivial
      | some j => exact tames_ite (fun _ => tames_pure h3 trivial) fun _ => tames_bind (tames_interruptibles (f := fun s => aset name i s.interruptibles) h3) fun _ s4 h4 _ _ => tames_interruptExtra h4
    · dsimp only
      exact tames_ite (fun _ => tames_bind (tames_interruptibles (f := fun s => aset name i s.interruptibles) h2) fun _ s4 h4 g4 _ => tames_succeed h4 (other_grows g4 (other_grows g2 ho))) fun _ => tames_succeed h2 (other_grows g2 ho)

theorem tames_notifyAll (l : List PItem) : ∀ {s : Sim}, Tame K s → Tames K (notifyAll l) s (fun _ _ => True) := by
  induction l with
  | nil => intro s h; exact tames_pure h trivial
  | cons x r ih => intro s h; exact tames_bind (tames_notify h) fun _ s1 h1 _ _ => ih h1

theorem tames_procCycle {C : Cfg} {pt : Pt} (h : Tame K s) (hr : pt.ref = Option.none) (hn : pt.named) (hm : pt.main = true) : Tames K (procCycle C pt) s (TameRes true true) :=
  tames_bind (tames_get h) fun now s1 h1 _ _ => tames_bind (tames_process h1 rfl trivial) fun pro s2 h2 _ ho => tames_pure h2
    (tameRes_wait ho.1 (fun h => by cases h) hm (fun _ h => by rw [hr] at h; cases h) hn fun _ => ho.2.1)

theorem tames_procSpins {n : ℕ} (h : Tame K s) : Tames K (procSpins n) s (TameRes true true) :=
  tames_bind (tames_timeout h) fun t s1 h1 _ ho => tames_pure h1 (tameRes_wait ho.1 (fun h => by cases h) rfl (fun _ h => by cases h) trivial fun _ => ho.2 rfl)

theorem tames_procLoop (h : Tame K s) : Tames K procLoop s (TameRes true true) := by
  unfold procLoop
  refine tames_bind (tames_get h) fun l s1 h1 _ _ => tames_ite (fun _ => ?_) fun _ => ?_
  · refine tames_bind (tames_setStarted (l := fun _ => removeProcedural l) h1) fun _ s2 h2 _ _ => ?_
    exact tames_bind (tames_get h2) fun l s3 h3 _ _ => tames_bind (tames_notifyAll l h3) fun _ s4 h4 _ _ => tames_procSpins h4
  · refine tames_bind (tames_get h1) fun a s2 h2 _ ha => ?_
    refine tames_bind (tames_get h2) fun gone s3 h3 _ hg => tames_ite (fun _ => tames_procSpins h3) fun _ => ?_
    obtain ⟨rfl, rfl⟩ := ha
    obtain ⟨rfl, -⟩ := hg
    exact tames_pure h3 (tameRes_wait h3.proc.1 (fun h => by cases h) rfl (fun _ h => by cases h) trivial fun _ => h3.proc.2)

theorem tames_procsReturned {v : SVal} (h : Tame K s) : Tames K (procsReturned v) s (fun _ _ => True) := by
  cases v with
  | procs => exact tames_quiet h fun _ => ⟨rfl, rfl, rfl, rfl, rfl, rfl, rfl, rfl, rfl, rfl⟩
  | nothing => exact tames_throw h
  | cont d => exact tames_throw h

theorem tames_envIter {e : EnvEvent} {k : Mach → Out Mach EnvEvent Unit} (h : Tame K s) : Tames K (envIter e k) s (TameRes false false) :=
  tames_bind (tames_process h rfl trivial) fun pro s1 h1 _ ho => tames_bind (tames_get h1) fun a s2 h2 g2 ha =>
    tames_bind (tames_anyOf h2 (other_grows g2 ho.1) (by obtain ⟨rfl, rfl⟩ := ha; exact h2.env)) fun c s3 h3 g3 hc =>
    tames_pure h3 (tameRes_wait hc (fun _ => rfl) rfl (fun q hq => by cases hq; exact meek_grows g3 (meek_grows g2 (ho.2.2 rfl))) trivial (by simp))

theorem tame_w (h : Tame K s) (w : Mach) (a : Option EnvArgs) : Tame K { s with w := w, envArgs := a } := tame_aside h ⟨rfl, rfl, rfl, rfl, rfl, rfl, rfl, rfl, rfl, rfl⟩

theorem aside_w (s : Sim) (w : Mach) (a : Option EnvArgs) : Aside s { s with w := w, envArgs := a } := ⟨rfl, rfl, rfl, rfl, rfl, rfl, rfl, rfl, rfl, rfl⟩

/-- Running a piece of code from a state that differs in other parts. -/
theorem tames_from {s0 : Sim} (hg : Grows s0 s) {m : SimM A} {Q : Sim → A → Prop} (h : Tames K m s Q) : Tame K (m s).1 ∧ Grows s0 (m s).1 ∧ ∀ a, (m s).2 = .ok a → Q (m s).1 a :=
  ⟨h.1, grows_trans _ _ _ hg h.2.1, h.2.2⟩

theorem tames_envStart {C : Cfg} (h : Tame K s) : Tames K (envStart C) s (TameRes false false) := by
  unfold Tames Does envStart
  cases ha : s.envArgs with
  | none => exact ⟨h, grows_refl _, by simp⟩
  | some a =>
    dsimp only
    have hw : ∀ w, Tame K { s with w := w, envArgs := some a } := fun w => tame_w h w _
    cases envProcess (fun env w => { w with env := some env }) envOf C.upper a.stimuli a.triggers a.times a.startTime s.w with
    | yield w e k => exact tames_from (s := { s with w := w, envArgs := some a }) (grows_aside (aside_w s w _)) (tames_envIter (hw w))
    | ret w r => exact ⟨hw w, grows_aside ⟨rfl, rfl, rfl, rfl, rfl, rfl, rfl, rfl, rfl, rfl⟩, by simp⟩
    | raise w x => exact ⟨hw w, grows_aside ⟨rfl, rfl, rfl, rfl, rfl, rfl, rfl, rfl, rfl, rfl⟩, by simp⟩

theorem tames_startAutomatic {name : String} {i : ℕ} {d : Desc} (h : Tame K s) : Tames K (startAutomatic name i d) s (fun _ _ => True) := by
  unfold startAutomatic
  refine tames_bind (tames_setStarted (l := fun s => s.startedList ++ [.gen name i d]) h) fun _ s1 h1 _ _ => ?_
  refine tames_bind (tames_activateOf h1) fun a s2 h2 _ ho => tames_bind (tames_get h2) fun busy s3 h3 g3 _ => tames_ite (fun _ => ?_) fun _ => ?_
  · refine tames_bind (tames_get h3) fun old s4 h4 _ _ => ?_
    cases old with
    | none => exact tames_throw h4
    | some j => exact tames_bind (tames_interruptibles (f := fun s => aset name i s.interruptibles) h4) fun _ s5 h5 _ _ => tames_interruptExtra h5
  · exact tames_bind (tames_interruptibles (f := fun s => aset name i s.interruptibles) h3) fun _ s5 h5 g5 _ => tames_succeed h5 (other_grows g5 (other_grows g3 ho))

theorem tames_automatic {name : String} (h : Tame K s) : Tames K (automatic name) s (fun _ _ => True) := by
  unfold Tames Does automatic
  cases s.w.buf name with
  | none => exact ⟨h, grows_refl _, fun _ _ => trivial⟩
  | some b =>
    dsimp only
    cases automaticFor name b s.w.onScreen s.now with
    | none => exact ⟨h, grows_refl _, fun _ _ => trivial⟩
    | some d => exact tames_from (s := { s with w := { s.w with nextId := s.w.nextId + 1 } }) (grows_aside (aside_w s _ _)) (tames_startAutomatic (tame_w h _ _))

theorem tames_automaticAll (l : List String) : ∀ {s : Sim}, Tame K s → Tames K (automaticAll l) s (fun _ _ => True) := by
  induction l with
  | nil => intro s h; exact tames_pure h trivial
  | cons x r ih => intro s h; exact tames_bind (tames_automatic h) fun _ s1 h1 _ _ => ih h1

theorem tames_envNext {pro : ℕ} (h : Tame K s) (hp : Meek s pro) : Tames K (envNext pro) s (fun _ _ => True) := by
  unfold envNext
  refine tames_bind (tames_get h) fun a s1 h1 g1 _ => tames_bind (tames_get h1) fun pressed s2 h2 g2 _ => tames_ite (fun _ => ?_) fun _ => tames_pure h2 trivial
  refine tames_bind (tames_newEvent h2) fun a' s3 h3 g3 ho => ?_
  have hg : Grows s3 { s3 with envActivate := a' } := grows_same rfl rfl rfl rfl rfl rfl
  exact tames_bind (Q := fun _ _ => True) ⟨tame_move h3 hg (fun _ _ h => .inl h) (fun _ _ h => .inl h) (fun _ _ h => .inl h) (.inl rfl) (.inr (other_grows hg ho.1)) (fun _ _ h => .inl h), hg, fun _ _ => trivial⟩ fun _ s4 h4 g4 _ =>
    tames_interrupt h4 (meek_grows g4 (meek_grows g3 (meek_grows g2 (meek_grows g1 hp))))

theorem tames_envAdvance {k : Mach → Out Mach EnvEvent Unit} (h : Tame K s) : Tames K (envAdvance k) s (TameRes false false) := by
  unfold Tames Does envAdvance
  cases k s.w with
  | yield w e k' => exact tames_from (s := { s with w := w }) (grows_aside (aside_w s _ _)) (tames_bind (tames_automaticAll _ (tame_w h w _)) fun _ s1 h1 _ _ => tames_envIter h1)
  | ret w r => exact ⟨tame_w h w _, grows_aside ⟨rfl, rfl, rfl, rfl, rfl, rfl, rfl, rfl, rfl, rfl⟩, fun a ha => by cases ha; exact tameRes_done⟩
  | raise w x => exact ⟨tame_w h w _, grows_aside ⟨rfl, rfl, rfl, rfl, rfl, rfl, rfl, rfl, rfl, rfl⟩, by simp⟩

theorem tames_envProcStart {e : Ev} (h : Tame K s) : Tames K (envProcStart e) s (TameRes false false) := by
  have ht := tames_timeout (d := e.time - s.now) h
  unfold Tames Does envProcStart
  unfold Tames Does at ht
  rcases hr : timeout (e.time - s.now) s with ⟨s1, x | t⟩
  · rw [hr] at ht
    exact tames_from ht.2.1 (tames_bind (tames_activateProc ht.1) fun _ s2 h2 _ _ => tames_throw h2)
  · rw [hr] at ht
    exact ⟨ht.1, ht.2.1, fun a ha => by cases ha; exact tameRes_wait (ht.2.2 t rfl).1 (fun _ => rfl) rfl (fun _ h => by cases h) trivial (by simp)⟩

theorem tames_envProcResume {e : Ev} {x : Except PyErr SVal} (h : Tame K s) : Tames K (envProcResume e x) s (TameRes false false) := by
  rcases x with x | v
  · by_cases hi : x = .interrupt
    · subst hi; exact tames_bind (tames_activateProc h) fun _ s1 h1 _ _ => tames_pure h1 tameRes_done
    · have : envProcResume e (.error x) = (do activateProc e; .throw x : SimM Res) := by cases x <;> first | rfl | exact absurd rfl hi
      rw [this]; exact tames_bind (tames_activateProc h) fun _ s1 h1 _ _ => tames_throw h1
  · exact tames_bind (tames_print h) fun _ s1 h1 _ _ => tames_bind (tames_activateProc h1) fun _ s2 h2 _ _ => tames_pure h2 tameRes_done

theorem tames_code {C : Cfg} {pt : Pt} {x : Except PyErr SVal} (h : Tame K s) (hr : ∀ q, pt.ref = some q → Meek s q) (hn : pt.named) : Tames K (code C pt x) s (TameRes pt.own pt.main) := by
  cases pt with
  | extraMain name pro => exact tames_extraAfterMain h hn (hr pro rfl)
  | extraCont name => exact tames_extraAfterCont h hn
  | localWait name e k => exact tames_localResume h
  | envProc e => exact tames_envProcResume h
  | procNew => rcases x with x | v <;> [exact tames_throw h; exact tames_procCycle h rfl trivial rfl]
  | procFirst => rcases x with x | v <;> [exact tames_throw h; exact tames_bind (tames_procsReturned h) fun _ s1 h1 _ _ => tames_procLoop h1]
  | procIdle => rcases x with x | v <;> [exact tames_throw h; exact tames_procSpins h]
  | procSpin n =>
    rcases x with x | v
    · exact tames_throw h
    · cases n <;> [exact tames_procCycle h rfl trivial rfl; exact tames_procSpins h]
  | procAgain =>
    rcases x with x | v
    · exact tames_throw h
    · refine tames_bind (tames_procsReturned h) fun _ s1 h1 _ _ => tames_bind (tames_newEvent h1) fun a s2 h2 _ ho => ?_
      have hg : Grows s2 { s2 with procActivate := a } := grows_same rfl rfl rfl rfl rfl rfl
      exact tames_bind (Q := fun _ _ => True) ⟨tame_move h2 hg (fun _ _ h => .inl h) (fun _ _ h => .inl h) (fun _ _ h => .inl h) (.inr ⟨other_grows hg ho.1, prompt_grows hg ho.1.1 ho.2⟩) (.inl rfl) (fun _ _ h => .inl h), hg, fun _ _ => trivial⟩
        fun _ s3 h3 _ _ => tames_procLoop h3
  | extraNew name => rcases x with x | v <;> [exact tames_throw h; exact tames_extraLoop h hn]
  | extraIdle name => rcases x with x | v <;> [exact tames_throw h; exact tames_bind (tames_renew h) fun _ s1 h1 _ _ => tames_extraLoop h1 hn]
  | localNew name g => rcases x with x | v <;> [exact tames_throw h; exact tames_bind (tames_get h) fun _ s1 h1 _ _ => tames_localRun h1]
  | envNew => rcases x with x | v <;> [exact tames_throw h; exact tames_envStart h]
  | envWait pro k => rcases x with x | v <;> [exact tames_throw h; exact tames_bind (tames_envNext h (hr pro rfl)) fun _ s1 h1 _ _ => tames_envAdvance h1]
  | envProcNew e => rcases x with x | v <;> [exact tames_throw h; exact tames_envProcStart h]

/-! ## Steps -/

/-- A process goes on or ends. -/
theorem tame_moves {pt : Pt} {o : Option Pt} {t : ℕ} (h : Tame K s) (hp : s.points p = some pt)
    (ho : ∀ pt', o = some pt' → (pt.own = false → pt'.own = false) ∧ pt'.main = pt.main ∧ (∀ q, pt'.ref = some q → Meek s q) ∧ pt'.named ∧ Other s t ∧ (pt.main = true → Prompt s t))
    (hd : o = Option.none → p ≠ 2) :
    Tame K ({ s with points := fset s.points p o, target := fset s.target p t } : Sim) := by
  have hkeep : ∀ {q}, Meek s q → Meek ({ s with points := fset s.points p o, target := fset s.target p t } : Sim) q := fun {q} hm => by
    refine ⟨hm.1, fun pt' hq => ?_⟩
    change fset _ _ _ _ = _ at hq
    by_cases he : q = p
    · subst he; rw [fset_same] at hq; exact (ho pt' hq).1 (hm.2 pt hp)
    · rw [fset_other _ _ he] at hq; exact hm.2 pt' hq
  refine ⟨h.two, fun q pt' hq => ?_, h.known, fun ev cb hm => ?_, fun n q hm => hkeep (h.extra n q hm), h.act, h.proc, h.env, fun q pt' r hq hr => ?_, fun q pt' hq => ?_, h.self, fun pt' hq => ?_, fun hq => ?_⟩
  · by_cases he : q = p
    · subst he; exact h.born q pt hp
    · change fset _ _ _ _ = _ at hq
      rw [fset_other _ _ he] at hq; exact h.born q pt' hq
  · have := h.safe ev cb hm
    cases cb with
    | interrupt q => exact hkeep this
    | check c => exact this
    | _ => trivial
  · change fset _ _ _ _ = _ at hq
    by_cases he : q = p
    · subst he; rw [fset_same] at hq; exact hkeep ((ho pt' hq).2.2.1 r hr)
    · rw [fset_other _ _ he] at hq; exact hkeep (h.refs q pt' r hq hr)
  · change fset _ _ _ _ = _ at hq
    by_cases he : q = p
    · subst he; rw [fset_same] at hq; exact (ho pt' hq).2.2.2.1
    · rw [fset_other _ _ he] at hq; exact h.names q pt' hq
  · change fset _ _ _ _ = _ at hq
    show pt'.main = true ∧ s.events 2 = _ ∧ Other s (fset _ _ _ _) ∧ Prompt s (fset _ _ _ _)
    by_cases he : 2 = p
    · subst he
      rw [fset_same] at hq ⊢
      have := h.alive pt hp
      obtain ⟨_, a2, _, _, a5, a6⟩ := ho pt' hq
      exact ⟨a2.trans this.1, this.2.1, a5, a6 this.1⟩
    · rw [fset_other _ _ he] at hq ⊢; exact h.alive pt' hq
  · change fset _ _ _ _ = _ at hq
    by_cases he : 2 = p
    · subst he; rw [fset_same] at hq; exact absurd rfl (hd hq)
    · rw [fset_other _ _ he] at hq; exact h.dead hq

/-- A process ends. -/
theorem tame_ends {pt : Pt} {v : Except PyErr SVal} (h : Tame K s) (hp : s.points p = some pt) (hv : p = 2 → ∃ x, v = .error x) : Tame K (s.ends p v) := by
  by_cases h2 : p = 2
  · subst h2
    obtain ⟨x, rfl⟩ := hv rfl
    obtain ⟨_, he, ho, hpr⟩ := h.alive pt hp
    set s' := s.ends 2 (.error x) with hs'
    have hq : ∀ en ∈ s'.queue, en ∈ s.queue ∨ (en.ev = 2 ∧ en.time = s.now) := fun en hen => by
      rcases (mem_insertEntry _ _ _).1 hen with rfl | h
      · exact .inr ⟨rfl, add_zero _⟩
      · exact .inl h
    have hpts : ∀ q, s'.points q = if q = 2 then Option.none else s.points q := fun q => rfl
    have hcbs : ∀ ev, s'.cbs ev = s.cbs ev := fun ev => cbs_trigger _ _ _ _
    have hkeep : ∀ {q}, Meek s q → Meek s' q := fun {q} hm => ⟨hm.1, fun pt' hq => by
      rw [hpts] at hq
      split at hq
      · cases hq
      · exact hm.2 pt' hq⟩
    have hprompt : ∀ {a}, Prompt s a → Prompt s' a := fun {a} h en hen hea => by
      rcases hq en hen with h1 | ⟨_, h1⟩
      · exact h en h1 hea
      · exact h1.le
    have hpt : ∀ q pt', s'.points q = some pt' → s.points q = some pt' := fun q pt' hq => by
      rw [hpts] at hq
      split at hq
      · cases hq
      · exact hq
    refine ⟨h.two, fun q pt' hq => h.born q pt' (hpt q pt' hq), fun en hen => ?_, fun ev cb hm => ?_, fun n q hm => hkeep (h.extra n q hm), fun n a hm => (h.act n a hm).imp_right hprompt, ⟨h.proc.1, hprompt h.proc.2⟩, h.env,
      fun q pt' r hq hr => hkeep (h.refs q pt' r (hpt q pt' hq) hr), fun q pt' hq => h.names q pt' (hpt q pt' hq), hprompt h.self, fun pt' hq => ?_, fun _ => ?_⟩
    · rcases hq en hen with h1 | ⟨h1, _⟩
      · exact h.known en h1
      · rw [h1]; exact h.two
    · rw [hcbs] at hm
      have := h.safe ev cb hm
      cases cb with
      | interrupt q => exact hkeep this
      | check c => exact this
      | _ => trivial
    · rw [hpts, if_pos rfl] at hq; cases hq
    · refine ⟨x, some [], ?_, .inl rfl⟩
      show fset s.events 2 _ 2 = _
      rw [fset_same]
      show (⟨_, (s.events 2).defused, (s.events 2).callbacks⟩ : SEv) = _
      rw [he]
  · have h1 := tame_moves (o := Option.none) (t := s.target p) h hp (by simp) (fun _ => h2)
    have : ({ s with points := fset s.points p Option.none, target := fset s.target p (s.target p) } : Sim) = { s with points := fset s.points p Option.none } := by
      congr 1
      funext q
      by_cases hq : q = p
      · subst hq; exact fset_same _ _ _
      · exact fset_other _ _ hq
    rw [this] at h1
    exact tame_trigger h1 ⟨h.born p pt hp, h2⟩

theorem tame_resume (C : Cfg) {x : Except PyErr SVal} (h : Tame K s) : Tame K (s.resume C p x) ∧ s.next ≤ (s.resume C p x).next := by
  cases hpt : s.points p with
  | none => unfold Sim.resume; rw [hpt]; exact ⟨h, le_rfl⟩
  | some pt =>
    have hc := tames_code (C := C) (pt := pt) (x := x) h (fun q hq => h.refs p pt q hpt hq) (h.names p pt hpt)
    unfold Tames Does at hc
    rw [resume_eq C hpt]
    rcases hr : code C pt x s with ⟨s1, e | r⟩
    · rw [hr] at hc
      have hp1 : s1.points p = some pt := (hc.2.1.points p (h.born p pt hpt)).trans hpt
      exact ⟨tame_ends hc.1 hp1 fun _ => ⟨e, rfl⟩, hc.2.1.next⟩
    · rw [hr] at hc
      have hp1 : s1.points p = some pt := (hc.2.1.points p (h.born p pt hpt)).trans hpt
      cases r with
      | done v =>
        refine ⟨tame_ends hc.1 hp1 fun h2 => ?_, hc.2.1.next⟩
        subst h2
        have := (hc.2.2 _ rfl).done v rfl
        rw [(h.alive pt hpt).1] at this; cases this
      | wait ev pt' =>
        obtain ⟨a1, a2, a3, a4, a5, a6⟩ := (hc.2.2 _ rfl).wait ev pt' rfl
        refine ⟨tame_addCallback (tame_moves hc.1 hp1 (fun pt'' he => by cases he; exact ⟨a2, a3, a4, a5, a1, fun hm => a6 (by rw [hm])⟩) (by simp)) a1 trivial, hc.2.1.next⟩

theorem tame_callback (C : Cfg) {ev : ℕ} {v : Except PyErr SVal} {cb : Callback} (h : Tame K s) (hev : ev ≠ 2) (hs : ∀ c, cb = .check c → Other s c) :
    Tame K (callback C ev v s cb) ∧ s.next ≤ (callback C ev v s cb).next := by
  cases cb with
  | resume p =>
    unfold callback
    rcases v with x | v
    · exact tame_resume C (tame_defuse h hev)
    · exact tame_resume C h
  | interrupt p =>
    unfold callback
    dsimp only
    split
    · exact ⟨h, le_rfl⟩
    · exact tame_resume C (tame_drop h)
  | check c =>
    unfold callback
    dsimp only
    split
    · exact ⟨h, le_rfl⟩
    · rcases v with x | v
      · exact ⟨tame_trigger (tame_defuse h hev) (hs c rfl), le_rfl⟩
      · exact ⟨tame_trigger h (hs c rfl), le_rfl⟩
  | build c a b => exact ⟨tame_drop (tame_drop h), le_rfl⟩
  | stop => exact ⟨h, le_rfl⟩

theorem tame_callbacks (C : Cfg) {ev : ℕ} {v : Except PyErr SVal} (l : List Callback) : ∀ {s : Sim}, Tame K s → (l ≠ [] → ev ≠ 2) → (∀ c, .check c ∈ l → Other s c) →
    Tame K (l.foldl (callback C ev v) s) := by
  induction l with
  | nil => intro s h _ _; exact h
  | cons cb l ih =>
    intro s h hev hs
    obtain ⟨h1, h2⟩ := tame_callback C (v := v) (cb := cb) h (hev (by simp)) fun c hc => hs c (by simp [hc])
    exact ih h1 (fun _ => hev (by simp)) fun c hc => ⟨(hs c (by simp [hc])).1.trans_le h2, (hs c (by simp [hc])).2⟩

theorem tame_taken {en : Entry} {q : List Entry} (h : Tame K s) (hi : Inv s) (hq : s.queue = en :: q) (hk : en.ev = 2 → K) : Tame K (s.taken en q) := by
  have hen : en ∈ s.queue := by rw [hq]; exact .head _
  have hprompt : ∀ {a}, Prompt s a → Prompt (s.taken en q) a := fun h x hx he => (h x (by rw [hq]; exact .tail _ hx) he).trans (hi.ahead en hen)
  have hcb : ∀ ev cb, cb ∈ (s.taken en q).cbs ev → cb ∈ s.cbs ev := fun ev cb hm => by
    have hm : _ ∈ ((fset s.events en.ev _ ev).callbacks).getD [] := hm
    by_cases he : ev = en.ev
    · subst he; rw [fset_same] at hm; cases hm
    · rw [fset_other _ _ he] at hm; exact hm
  refine ⟨h.two, h.born, fun x hx => h.known x (by rw [hq]; exact .tail _ hx), fun ev cb hm => h.safe ev cb (hcb ev cb hm), h.extra, fun n a hm => (h.act n a hm).imp_right hprompt, ⟨h.proc.1, hprompt h.proc.2⟩, h.env, h.refs, h.names, hprompt h.self,
    fun pt hp => ?_, fun hp => ?_⟩
  · obtain ⟨a1, a2, a3, a4⟩ := h.alive pt hp
    have hne : 2 ≠ en.ev := fun he => by
      have := hi.queued en hen
      rw [← he, a2] at this; exact absurd this (by simp)
    exact ⟨a1, (fset_other _ _ hne).trans a2, a3, hprompt a4⟩
  · obtain ⟨x, l, h1, h2⟩ := h.dead hp
    by_cases he : 2 = en.ev
    · refine ⟨x, Option.none, ?_, .inr ⟨hk he.symm, rfl⟩⟩
      show fset s.events en.ev _ 2 = _
      rw [← he, fset_same, h1]
    · exact ⟨x, l, (fset_other _ _ he).trans h1, h2⟩

theorem cbs_two (h : Tame K s) : s.cbs 2 = [] := by
  unfold Sim.cbs
  rcases tame_two h with h | h <;> rw [h] <;> rfl

theorem tame_called {C : Cfg} {en : Entry} {q : List Entry} (h : Tame K s) (hi : Inv s) (hq : s.queue = en :: q) (hk : en.ev = 2 → K) : Tame K (s.called C en q) := by
  refine tame_callbacks C _ (tame_taken h hi hq hk) (fun hl he => hl ?_) fun c hc => h.safe _ _ hc
  rw [he]; exact cbs_two h

theorem tame_step {C : Cfg} {r : Stepped} (h : Tame K s) (hi : Inv s) (hk : ∀ en q, s.queue = en :: q → en.ev = 2 → K) (hs : s.step C = r) :
    match r with | .ok s' => Tame K s' | .stopped s' => Tame K s' | .raised s' _ => Tame K s' | .empty => True := by
  rcases step_cases hs with ⟨rfl, _⟩ | ⟨en, q, hq, ⟨hst, rfl⟩ | ⟨_, rfl | ⟨x, rfl⟩⟩⟩
  · trivial
  · exact tame_taken h hi hq (hk en q hq)
  · exact tame_called h hi hq (hk en q hq)
  · exact tame_called h hi hq (hk en q hq)

/-! ## All states -/

theorem tames_initExtra : ∀ (l : List String) {s : Sim}, Tame K s → Tames K (initExtra l) s (fun _ _ => True)
  | [], _, h => tames_pure h trivial
  | n :: r, s, h => by
    unfold initExtra
    split
    · exact tames_initExtra r h
    · rename_i hn
      refine tames_bind (tames_process h rfl hn) fun p s1 h1 _ hm => tames_bind (tames_newEvent h1) fun a s2 h2 g2 ho => ?_
      have hg : Grows s2 { s2 with extra := s2.extra ++ [(n, p)], activate := s2.activate ++ [(n, a)] } := grows_same rfl rfl rfl rfl rfl rfl
      refine tames_bind (Q := fun _ _ => True) ⟨?_, hg, fun _ _ => trivial⟩ fun _ s3 h3 _ _ => tames_initExtra r h3
      refine tame_move h2 hg (fun _ _ h => .inl h) (fun m q hq => ?_) (fun m q hq => ?_) (.inl rfl) (.inl rfl) (fun _ _ h => .inl h)
      · rcases List.mem_append.1 hq with hq | hq
        · exact .inl hq
        · simp only [List.mem_singleton, Prod.mk.injEq] at hq
          obtain ⟨-, rfl⟩ := hq
          exact .inr (meek_grows hg (meek_grows g2 (hm.2.2 rfl)))
      · rcases List.mem_append.1 hq with hq | hq
        · exact .inl hq
        · simp only [List.mem_singleton, Prod.mk.injEq] at hq
          obtain ⟨-, rfl⟩ := hq
          exact .inr ⟨other_grows hg ho.1, prompt_grows hg ho.1.1 ho.2⟩

/-- The first process is number 2. -/
theorem tame_start (w : Mach) (args : Option EnvArgs) (t : ℚ) : Tame K (process .procNew (Sim.blank w args t)).1 := by
  set s := (process .procNew (Sim.blank w args t)).1 with hs
  have hpts : ∀ q, s.points q = if q = 2 then some .procNew else Option.none := fun q => rfl
  have hone : ∀ q pt, s.points q = some pt → q = 2 ∧ pt = .procNew := fun q pt hq => by
    rw [hpts] at hq
    split at hq
    · cases hq; exact ⟨‹_›, rfl⟩
    · cases hq
  have hqueue : ∀ en ∈ s.queue, en.ev = 3 ∧ en.time = s.now := fun en hen => by
    have : en ∈ insertEntry _ [] := hen
    rcases (mem_insertEntry _ _ _).1 this with rfl | h
    · exact ⟨rfl, add_zero _⟩
    · cases h
  have hp : ∀ a, Prompt s a := fun a en hen _ => (hqueue en hen).2.le
  have hn : s.next = 4 := rfl
  have hcb : ∀ ev cb, cb ∈ s.cbs ev → cb = .resume 2 := fun ev cb hm => by
    have : s.cbs ev = if ev = 3 then [.resume 2] else [] := by
      show (SEv.callbacks (fset (fset (Sim.blank w args t).events 2 _) 3 _ ev)).getD [] = _
      by_cases h3 : ev = 3
      · subst h3; rw [fset_same]; rfl
      · rw [fset_other _ _ h3, if_neg h3]
        by_cases h2 : ev = 2
        · subst h2; rw [fset_same]; rfl
        · rw [fset_other _ _ h2]
          simp only [Sim.blank]
          split <;> rfl
    rw [this] at hm
    split at hm
    · simpa using hm
    · cases hm
  refine ⟨by omega, fun q pt hq => by rw [(hone q pt hq).1]; omega, fun en hen => by rw [(hqueue en hen).1]; omega, fun ev cb hm => by rw [hcb ev cb hm]; trivial, fun n q hq => (by cases hq), fun n q hq => (by cases hq),
    ⟨⟨by show 0 < 4; omega, by show 0 ≠ 2; omega⟩, hp _⟩, ⟨by show 1 < 4; omega, by show 1 ≠ 2; omega⟩, fun q pt r hq hr => ?_, fun q pt hq => ?_, hp _, fun pt hq => ?_, fun hq => ?_⟩
  · rw [(hone q pt hq).2] at hr; cases hr
  · rw [(hone q pt hq).2]; trivial
  · obtain rfl := (hone 2 pt hq).2
    exact ⟨rfl, rfl, ⟨by show 3 < 4; omega, by show 3 ≠ 2; omega⟩, hp _⟩
  · cases hq

theorem tame_init (w : Mach) (args : Option EnvArgs) (t : ℚ) : Tame K (Sim.init w args t) := by
  unfold Sim.init
  have : Tames K (do
    initExtra (w.bufs.map Prod.fst)
    if w.env.isSome then do
      let _ ← process .envNew
      pure ()
    else pure () : SimM Unit) (process .procNew (Sim.blank w args t)).1 (fun _ _ => True) := by
    refine tames_bind (tames_initExtra _ (tame_start w args t)) fun _ s2 h2 _ _ => ?_
    split
    · exact tames_bind (tames_process h2 rfl trivial) fun _ s3 h3 _ _ => tames_pure h3 trivial
    · exact tames_pure h2 trivial
  exact this.1

theorem tame_setStop {q : ℚ} (h : Tame K s) : Tame K (s.setStop q).1 := by
  unfold Sim.setStop
  split
  · exact h
  · exact tame_timer h (by simp [Safe])

theorem tame_reachable {C : Cfg} {w : Mach} {args : Option EnvArgs} {t : ℚ} (h : Reachable C w args t s) : Tame True s := by
  induction h with
  | init => exact tame_init w args t
  | @stop _ _ q _ _ hs ih => have := tame_setStop (q := q) ih; rw [hs] at this; exact this
  | step hr hs ih => exact tame_step ih (fine_reachable hr).1 (fun _ _ _ _ => trivial) hs
  | stopped hr hs ih => exact tame_step ih (fine_reachable hr).1 (fun _ _ _ _ => trivial) hs
  | raised hr hs ih => exact tame_step ih (fine_reachable hr).1 (fun _ _ _ _ => trivial) hs
  | @compile s1 _ _ _ hs ih =>
    have : Tame True (compileAtEnd C s1).1 := by
      unfold compileAtEnd
      split
      · split <;> exact tame_aside ih ⟨rfl, rfl, rfl, rfl, rfl, rfl, rfl, rfl, rfl, rfl⟩
      · exact ih
    rw [hs] at this; exact this

end Verif
