import Verif.Lemmas.Tame
import Verif.Lemmas.Outcome
import Verif.Lemmas.Propped
/-! # The processes of modules end only with an exception, which is raised -/
namespace Verif
open Verif.Spec

variable {K : Prop} {s s' : Sim} {p : ℕ} {A B : Type}

/-- The event is not the end of the process of a module. -/
def Neutral (s : Sim) (a : ℕ) : Prop := ∀ n, (n, a) ∉ s.extra

/-- The processes of modules do not end without an exception, and nobody waits for their end. -/
structure Firm (K : Prop) (s : Sim) : Prop where
  lt : ∀ n e, (n, e) ∈ s.extra → e < s.next
  checks : ∀ ev c, .check c ∈ s.cbs ev → Neutral s c
  act : ∀ n a, (n, a) ∈ s.activate → Neutral s a
  proc : Neutral s s.procActivate
  env : Neutral s s.envActivate
  alive : ∀ n e pt, (n, e) ∈ s.extra → s.points e = some pt → pt.module = some n ∧ s.events e = ⟨Option.none, false, some []⟩
  soon : ∀ en ∈ s.queue, en.time ≤ s.now ∨ Neutral s en.ev
  dead : ∀ n e, (n, e) ∈ s.extra → s.points e = Option.none → ∃ x l, s.events e = ⟨some (.error x), false, l⟩ ∧ (l = some [] ∨ (K ∧ l = Option.none))

/-- The modules are the same, and their processes are left alone. -/
structure Spared (s s' : Sim) : Prop where
  next : s.next ≤ s'.next
  extra : s'.extra = s.extra
  pts : ∀ e < s.next, s'.points e = s.points e
  now : s'.now = s.now
  sched : ∀ en ∈ s'.queue, en ∈ s.queue ∨ Neutral s en.ev
  evs : ∀ n e, (n, e) ∈ s.extra → e < s.next → s'.events e = s.events e

theorem spared_refl (s : Sim) : Spared s s := ⟨le_rfl, rfl, fun _ _ => rfl, rfl, fun _ h => .inl h, fun _ _ _ _ => rfl⟩
theorem spared_trans (a b c : Sim) (h1 : Spared a b) (h2 : Spared b c) : Spared a c :=
  ⟨h1.next.trans h2.next, h2.extra.trans h1.extra, fun e h => (h2.pts e (h.trans_le h1.next)).trans (h1.pts e h), h2.now.trans h1.now,
    fun en h => (h2.sched en h).elim (h1.sched en) fun h => .inr (fun n hn => h n (h1.extra ▸ hn)),
    fun n e hn h => (h2.evs n e (h1.extra ▸ hn) (h.trans_le h1.next)).trans (h1.evs n e hn h)⟩

theorem neutral_spared (hg : Spared s s') {a : ℕ} (h : Neutral s a) : Neutral s' a := fun n hn => h n (hg.extra ▸ hn)

theorem neutral_new (h : Firm K s) : Neutral s s.next := fun n hn => lt_irrefl _ (h.lt n _ hn)

theorem neutral_ne {n : String} {e a : ℕ} (h : Neutral s a) (hn : (n, e) ∈ s.extra) : e ≠ a := fun he => h n (he ▸ hn)

/-- The general form of changes. -/
theorem firm_move (h : Firm K s) (hg : Spared s s') (hc : ∀ ev c, .check c ∈ s'.cbs ev → .check c ∈ s.cbs ev ∨ Neutral s' c)
    (ha : ∀ n a, (n, a) ∈ s'.activate → (n, a) ∈ s.activate ∨ Neutral s' a) (hpr : s'.procActivate = s.procActivate ∨ Neutral s' s'.procActivate)
    (he : s'.envActivate = s.envActivate ∨ Neutral s' s'.envActivate) : Firm K s' := by
  refine ⟨fun n e hn => (h.lt n e (hg.extra ▸ hn)).trans_le hg.next, fun ev c hm => ?_, fun n a hm => ?_, ?_, ?_, fun n e pt hn hp => ?_, fun en hen => ?_, fun n e hn hp => ?_⟩
  · exact (hc ev c hm).elim (fun h1 => neutral_spared hg (h.checks ev c h1)) id
  · exact (ha n a hm).elim (fun h1 => neutral_spared hg (h.act n a h1)) id
  · exact hpr.elim (fun h1 => by rw [h1]; exact neutral_spared hg h.proc) id
  · exact he.elim (fun h1 => by rw [h1]; exact neutral_spared hg h.env) id
  · rw [hg.extra] at hn
    have hl := h.lt n e hn
    rw [hg.pts e hl] at hp
    rw [hg.evs n e hn hl]
    exact h.alive n e pt hn hp
  · rcases hg.sched en hen with h1 | h1
    · exact (h.soon en h1).imp (fun h2 => by rw [hg.now]; exact h2) (neutral_spared hg)
    · exact .inr (neutral_spared hg h1)
  · rw [hg.extra] at hn
    have hl := h.lt n e hn
    rw [hg.pts e hl] at hp
    rw [hg.evs n e hn hl]
    exact h.dead n e hn hp

theorem firm_same (h : Firm K s) (hg : Spared s s') (h4 : s'.activate = s.activate) (h5 : s'.procActivate = s.procActivate)
    (h6 : s'.envActivate = s.envActivate) (hc : ∀ ev c, .check c ∈ s'.cbs ev → .check c ∈ s.cbs ev ∨ Neutral s' c) : Firm K s' :=
  firm_move h hg hc (fun n q hm => .inl (h4 ▸ hm)) (.inl h5) (.inl h6)

theorem spared_same (hn : s'.next = s.next) (hx : s'.extra = s.extra) (hp : s'.points = s.points) (he : s'.events = s.events) (ht : s'.now = s.now) (hq : s'.queue = s.queue) : Spared s s' :=
  ⟨hn.ge, hx, fun q _ => by rw [hp], ht, fun _ h => .inl (hq ▸ h), fun _ _ _ _ => by rw [he]⟩

theorem spared_event {ev : ℕ} {E : SEv} {q : List Entry} (hev : Neutral s ev) (hq : ∀ en ∈ q, en ∈ s.queue ∨ Neutral s en.ev) : Spared s { s with events := fset s.events ev E, queue := q } :=
  ⟨le_rfl, rfl, fun _ _ => rfl, rfl, hq, fun n e hn _ => fset_other _ _ (neutral_ne hev hn)⟩

theorem firm_trigger {ev : ℕ} {v : Except PyErr SVal} (h : Firm K s) (ho : Neutral s ev) : Firm K (s.trigger ev v) ∧ Spared s (s.trigger ev v) :=
  have hq : ∀ en ∈ (s.trigger ev v).queue, en ∈ s.queue ∨ Neutral s en.ev := fun en hen => by
    rcases (mem_insertEntry _ _ _).1 hen with rfl | hen
    · exact .inr ho
    · exact .inl hen
  ⟨firm_same h (spared_event ho hq) rfl rfl rfl fun x c hm => by rw [cbs_trigger] at hm; exact .inl hm, spared_event ho hq⟩

theorem spared_alloc (h : Firm K s) (E : SEv) : Spared s (s.alloc E) :=
  ⟨Nat.le_succ _, rfl, fun _ _ => rfl, rfl, fun _ h => .inl h, fun n e hn hl => events_alloc_old (Nat.ne_of_lt hl)⟩

theorem firm_timer {E : SEv} {u : Bool} {d : ℚ} (h : Firm K s) (hE : ∀ c, .check c ∉ E.callbacks.getD []) :
    (Firm K (s.alloc E) ∧ Spared s (s.alloc E)) ∧ Firm K ((s.alloc E).schedule s.next u d) ∧ Spared s ((s.alloc E).schedule s.next u d) := by
  have hc : ∀ ev c, .check c ∈ (s.alloc E).cbs ev → .check c ∈ s.cbs ev := fun ev c hm => by
    by_cases he : ev = s.next
    · subst he; rw [cbs_alloc_new] at hm; exact absurd hm (hE c)
    · rw [cbs_alloc_old he] at hm; exact hm
  have h1 := spared_alloc h E
  have h2 : Spared s ((s.alloc E).schedule s.next u d) := by
    refine ⟨h1.next, h1.extra, h1.pts, h1.now, fun en hen => ?_, h1.evs⟩
    rcases (mem_insertEntry _ _ _).1 hen with rfl | hen
    · exact .inr (neutral_new h)
    · exact .inl hen
  exact ⟨⟨firm_same h h1 rfl rfl rfl fun ev c hm => .inl (hc ev c hm), h1⟩, firm_same h h2 rfl rfl rfl fun ev c hm => .inl (hc ev c hm), h2⟩

theorem firm_addCallback {ev : ℕ} {c : Callback} (h : Firm K s) (ho : Neutral s ev) (hc : ∀ x, c = .check x → Neutral s x) : Firm K (s.addCallback ev c) ∧ Spared s (s.addCallback ev c) :=
  ⟨firm_same h (spared_event ho fun _ h => .inl h) rfl rfl rfl fun x cb hm => by
    rcases mem_addCallback hm with hm | ⟨hm, _⟩
    · exact .inl hm
    · exact .inr (hc _ hm.symm), spared_event ho fun _ h => .inl h⟩

theorem firm_callbacks (h : Firm K s) {n : String} {e : ℕ} (hn : (n, e) ∈ s.extra) : (s.events e).callbacks = some [] ∨ (s.events e).callbacks = Option.none := by
  cases hp : s.points e with
  | some pt => rw [(h.alive n e pt hn hp).2]; exact .inl rfl
  | none =>
    obtain ⟨x, l, h1, h2⟩ := h.dead n e hn hp
    rw [h1]; exact h2.imp_right And.right

theorem firm_cbs (h : Firm K s) {n : String} {e : ℕ} (hn : (n, e) ∈ s.extra) : s.cbs e = [] := by
  unfold Sim.cbs
  rcases firm_callbacks h hn with h | h <;> rw [h] <;> rfl

theorem firm_drop {ev : ℕ} {c : Callback} (h : Firm K s) : Firm K (s.dropCallback ev c) ∧ Spared s (s.dropCallback ev c) := by
  have hg : Spared s (s.dropCallback ev c) := by
    refine ⟨le_rfl, rfl, fun _ _ => rfl, rfl, fun _ h => .inl h, fun n e hn _ => ?_⟩
    show fset s.events ev _ e = _
    by_cases he : ev = e
    · subst he
      rw [fset_same]
      have := firm_callbacks h hn
      rcases hE : s.events ev with ⟨v, d, l⟩
      rw [hE] at this
      rcases this with h1 | h1 <;> (dsimp only at h1 ⊢; rw [h1]; rfl)
    · exact fset_other _ _ (Ne.symm he)
  exact ⟨firm_same h hg rfl rfl rfl fun _ _ hm => .inl (mem_drop hm), hg⟩

theorem firm_defuse {ev : ℕ} (h : Firm K s) (he : Neutral s ev) : Firm K (s.defuse ev) ∧ Spared s (s.defuse ev) :=
  ⟨firm_same h (spared_event he fun _ h => .inl h) rfl rfl rfl fun x p hm => by rw [cbs_defuse] at hm; exact .inl hm, spared_event he fun _ h => .inl h⟩

/-! ## Code -/

/-- `Does` for this invariant. -/
abbrev Firms (K : Prop) (m : SimM A) (s : Sim) (Q : Sim → A → Prop) : Prop := Does (Firm K) Spared m s Q

/-- How a process goes on, which belongs to this module. -/
structure FirmRes (m : Option String) (s : Sim) (r : Res) : Prop where
  wait : ∀ ev pt, r = .wait ev pt → Neutral s ev ∧ pt.module = m
  done : ∀ v, r = .done v → m = Option.none

theorem firms_bind {m : SimM A} {f : A → SimM B} {Q : Sim → A → Prop} {Q' : Sim → B → Prop} (hm : Firms K m s Q)
    (hf : ∀ a s', Firm K s' → Spared s s' → Q s' a → Firms K (f a) s' Q') : Firms K (m >>= f) s Q' := does_bind spared_trans hm hf

theorem firms_pure {a : A} {Q : Sim → A → Prop} (h : Firm K s) (hq : Q s a) : Firms K (pure a) s Q := does_pure spared_refl h hq

theorem firms_throw {e : PyErr} {Q : Sim → A → Prop} (h : Firm K s) : Firms K (SimM.throw e : SimM A) s Q := does_throw spared_refl h

theorem firms_get {f : Sim → A} (h : Firm K s) : Firms K (SimM.get f) s (fun s' a => s' = s ∧ a = f s) := does_get spared_refl h

theorem spared_aside (h : Aside s s') : Spared s s' := by
  obtain ⟨h0, h1, h2, _, h4, h5, h6, _⟩ := h
  exact spared_same h1 h6 h2 h4 h0 h5

theorem firm_aside (h : Firm K s) (ha : Aside s s') : Firm K s' := by
  have hg := spared_aside ha
  obtain ⟨_, _, _, _, h4, _, _, h7, h8, h9⟩ := ha
  exact firm_same h hg h7 h8 h9 fun ev cb hm => by unfold Sim.cbs at hm ⊢; rw [h4] at hm; exact .inl hm

theorem firms_quiet {f : Sim → Sim} (h : Firm K s) (hf : ∀ s : Sim, Aside s (f s)) : Firms K (SimM.set f) s (fun _ _ => True) :=
  ⟨firm_aside h (hf s), spared_aside (hf s), fun _ _ => trivial⟩

theorem firms_ite {b : Prop} [Decidable b] {m n : SimM A} {Q : Sim → A → Prop} (hm : b → Firms K m s Q) (hn : ¬ b → Firms K n s Q) :
    Firms K (if b then m else n) s Q := by
  split
  · exact hm ‹_›
  · exact hn ‹_›

theorem firms_newEvent (h : Firm K s) : Firms K newEvent s Neutral := by
  have := (firm_timer (u := true) (d := 0) (E := ⟨Option.none, false, some []⟩) h (by simp)).1
  refine ⟨this.1, this.2, fun a ha => ?_⟩
  obtain rfl : s.next = a := by simpa [newEvent] using ha
  exact neutral_new h

theorem firms_succeed {ev : ℕ} (h : Firm K s) (ho : Neutral s ev) : Firms K (succeed ev) s (fun _ _ => True) := by
  unfold Firms Does succeed
  split
  · exact ⟨h, spared_refl _, fun _ _ => trivial⟩
  · exact ⟨(firm_trigger h ho).1, (firm_trigger h ho).2, fun _ _ => trivial⟩

theorem firms_timeout {d : ℚ} (h : Firm K s) : Firms K (timeout d) s Neutral := by
  unfold Firms Does timeout
  split
  · exact ⟨h, spared_refl _, by simp⟩
  · have := (firm_timer (u := false) (d := d) (E := ⟨some (.ok .nothing), false, some []⟩) h (by simp)).2
    refine ⟨this.1, this.2, fun a ha => ?_⟩
    obtain rfl : s.next = a := by simpa using ha
    exact neutral_new h

theorem firms_process {pt : Pt} (h : Firm K s) : Firms K (process pt) s Neutral := by
  unfold Firms Does process
  dsimp only
  set s1 := s.alloc ⟨Option.none, false, some []⟩ with hs1
  obtain ⟨h1, g1⟩ := (firm_timer (u := true) (d := 0) (E := ⟨Option.none, false, some []⟩) h (by simp)).1
  set s2 := (s1.alloc ⟨some (.ok .nothing), false, some [.resume s.next]⟩).schedule s1.next true 0 with hs2
  obtain ⟨h2, g2⟩ := (firm_timer (s := s1) (u := true) (d := 0) (E := ⟨some (.ok .nothing), false, some [.resume s.next]⟩) h1 (by simp)).2
  have g12 := spared_trans _ _ _ g1 g2
  set s3 : Sim := { s2 with points := fset s2.points s.next (some pt), target := fset s2.target s.next s1.next } with hs3
  have g3 : Spared s s3 := ⟨g12.next, g12.extra, fun e hl => (fset_other _ _ (Nat.ne_of_lt hl)).trans (g12.pts e hl), g12.now, g12.sched, g12.evs⟩
  refine ⟨?_, g3, fun a ha => ?_⟩
  · have hx : ∀ n e, (n, e) ∈ s3.extra → s3.points e = s2.points e := fun n e hn => fset_other _ _ (neutral_ne (neutral_new h) hn)
    exact ⟨h2.lt, h2.checks, h2.act, h2.proc, h2.env, fun n e pt' hn hp => h2.alive n e pt' hn (by rw [← hx n e hn]; exact hp), h2.soon, fun n e hn hp => h2.dead n e hn (by rw [← hx n e hn]; exact hp)⟩
  · obtain rfl : s.next = a := by simpa using ha
    exact neutral_new h

theorem firms_interrupt {q : ℕ} (h : Firm K s) : Firms K (interruptProcess q) s (fun _ _ => True) := by
  unfold Firms Does interruptProcess
  split
  · exact ⟨h, spared_refl _, fun _ _ => trivial⟩
  · have := (firm_timer (u := true) (d := 0) (E := ⟨some (.error .interrupt), true, some [.interrupt q]⟩) h (by simp)).2
    exact ⟨this.1, this.2, fun _ _ => trivial⟩

theorem firms_anyOf {a b : ℕ} (h : Firm K s) (ha : Neutral s a) (hb : Neutral s b) : Firms K (anyOf a b) s Neutral := by
  unfold Firms Does anyOf
  dsimp only
  set s1 := s.alloc ⟨Option.none, false, some [.build s.next a b]⟩ with hs1
  obtain ⟨h1, g1⟩ := (firm_timer (u := true) (d := 0) (E := ⟨Option.none, false, some [.build s.next a b]⟩) h (by simp)).1
  have o1 : Neutral s1 s.next := neutral_spared g1 (neutral_new h)
  have key : ∀ (t : Sim) (ev : ℕ), Firm K t → Neutral t ev → Neutral t s.next →
      Firm K (if t.processed ev then (if t.triggered s.next then t else t.trigger s.next (.ok .nothing)) else t.addCallback ev (.check s.next)) ∧
      Spared t (if t.processed ev then (if t.triggered s.next then t else t.trigger s.next (.ok .nothing)) else t.addCallback ev (.check s.next)) := by
    intro t ev ht he ho
    split
    · split
      · exact ⟨ht, spared_refl _⟩
      · exact firm_trigger ht ho
    · exact firm_addCallback ht he fun x hx => by cases hx; exact ho
  obtain ⟨h2, g2⟩ := key s1 a h1 (neutral_spared g1 ha) o1
  have g12 := spared_trans _ _ _ g1 g2
  obtain ⟨h3, g3⟩ := key _ b h2 (neutral_spared g12 hb) (neutral_spared g2 o1)
  refine ⟨h3, spared_trans _ _ _ g12 g3, fun x hx => ?_⟩
  obtain rfl : s.next = x := by simpa using hx
  exact neutral_spared (spared_trans _ _ _ g2 g3) o1

theorem firms_activateProc {e : Ev} (h : Firm K s) : Firms K (activateProc e) s (fun _ _ => True) := by
  rcases activateProc_cases e with he | he <;> rw [he]
  · exact firms_pure h trivial
  · unfold Firms Does
    dsimp only
    split
    · exact ⟨h, spared_refl _, fun _ _ => trivial⟩
    · exact firms_succeed h h.proc

theorem firms_print {e : Ev} (h : Firm K s) : Firms K (printEvent e) s (fun _ _ => True) := by
  rcases printEvent_cases e with ⟨_, he⟩ | ⟨_, he⟩ <;> rw [he]
  · exact firms_pure h trivial
  · exact firms_quiet h fun _ => ⟨rfl, rfl, rfl, rfl, rfl, rfl, rfl, rfl, rfl, rfl⟩

theorem firms_w (h : Firm K s) {f : Sim → Mach} : Firms K (SimM.set (fun s => { s with w := f s })) s (fun _ _ => True) := firms_quiet h fun _ => ⟨rfl, rfl, rfl, rfl, rfl, rfl, rfl, rfl, rfl, rfl⟩

theorem firms_env (h : Firm K s) : Firms K envInteraction s (fun _ _ => True) := by
  unfold Firms envInteraction Does
  dsimp only
  cases s.w.env with
  | none => exact ⟨h, spared_refl _, fun _ _ => trivial⟩
  | some env =>
    dsimp only
    split
    · exact firms_bind (firms_succeed h h.env) fun _ s1 h1 _ _ => firms_w (f := fun s => { s.w with interaction := [] }) h1
    · exact firms_w (f := fun s => { s.w with interaction := [] }) h

theorem firmRes_done {v : SVal} : FirmRes Option.none s (.done v) := ⟨fun ev pt he => (by cases he), fun _ _ => rfl⟩

theorem firmRes_wait {m : Option String} {ev : ℕ} {pt : Pt} (h1 : Neutral s ev) (h2 : pt.module = m) : FirmRes m s (.wait ev pt) := ⟨fun ev' pt' he => by cases he; exact ⟨h1, h2⟩, fun v he => by cases he⟩

theorem firms_localRun {name : String} {o : Out Mach YV Unit} (h : Firm K s) : Firms K (localRun name o) s (FirmRes Option.none) := by
  cases o with
  | yield w y k =>
    cases y with
    | ev e =>
      exact firms_bind (firms_w (f := fun _ => w) h) fun _ s1 h1 _ _ => firms_bind (firms_get h1) fun now s2 h2 _ _ => firms_bind (firms_timeout h2) fun t s3 h3 _ ho =>
        firms_pure h3 (firmRes_wait ho rfl)
    | cont d => exact firms_bind (firms_w (f := fun _ => w) h) fun _ s1 h1 _ _ => firms_pure h1 firmRes_done
    | procs => exact firms_bind (firms_w (f := fun _ => w) h) fun _ s1 h1 _ _ => firms_pure h1 firmRes_done
    | nothing => exact firms_bind (firms_w (f := fun _ => w) h) fun _ s1 h1 _ _ => firms_pure h1 firmRes_done
  | ret w r => exact firms_bind (firms_w (f := fun _ => w) h) fun _ s1 h1 _ _ => firms_pure h1 firmRes_done
  | raise w x => exact firms_bind (firms_w (f := fun _ => w) h) fun _ s1 h1 _ _ => firms_throw h1

theorem firms_localResume {name : String} {e : Ev} {k : Mach → Out Mach YV Unit} {x : Except PyErr SVal} (h : Firm K s) :
    Firms K (localResume name e k x) s (FirmRes Option.none) := by
  rcases x with x | v
  · by_cases hi : x = .interrupt
    · subst hi; exact firms_pure h firmRes_done
    · have : localResume name e k (.error x) = .throw x := by cases x <;> first | rfl | exact absurd rfl hi
      rw [this]; exact firms_throw h
  · exact firms_bind (firms_print h) fun _ s1 h1 _ _ => firms_bind (firms_activateProc h1) fun _ s2 h2 _ _ => firms_bind (firms_env h2) fun _ s3 h3 _ _ =>
      firms_bind (firms_get h3) fun w s4 h4 _ _ => firms_localRun h4

theorem firms_activateOf {name : String} (h : Firm K s) : Firms K (activateOf name) s Neutral := by
  unfold Firms Does activateOf
  cases hl : alook name s.activate with
  | none => exact ⟨h, spared_refl _, by simp⟩
  | some a => exact ⟨h, spared_refl _, fun b hb => by cases hb; exact h.act name a (alook_mem hl)⟩

theorem firms_renew {name : String} (h : Firm K s) : Firms K (renewActivate name) s Neutral := by
  unfold renewActivate
  refine firms_bind (firms_newEvent h) fun a s1 h1 _ ho => ?_
  have hg : Spared s1 { s1 with activate := aset name a s1.activate } := spared_same rfl rfl rfl rfl rfl rfl
  refine firms_bind (Q := fun s' _ => Neutral s' a) ⟨?_, hg, fun _ _ => neutral_spared hg ho⟩ fun _ s2 h2 _ ho2 => firms_pure h2 ho2
  refine firm_move h1 hg (fun _ _ h => .inl h) (fun n b hn => ?_) (.inl rfl) (.inl rfl)
  rcases aset_mem hn with hn | hn
  · cases hn; exact .inr (neutral_spared hg ho)
  · exact .inl hn

theorem firms_setStarted {l : Sim → List PItem} (h : Firm K s) : Firms K (SimM.set (fun s => s.setStarted (l s))) s (fun _ _ => True) :=
  firms_quiet h fun s => by unfold Sim.setStarted; cases s.started <;> exact ⟨rfl, rfl, rfl, rfl, rfl, rfl, rfl, rfl, rfl, rfl⟩

theorem firms_extraLoop {C : Cfg} {name : String} (h : Firm K s) : Firms K (extraLoop C name) s (FirmRes (some name)) := by
  unfold extraLoop
  refine firms_bind (firms_get h) fun l s1 h1 _ _ => ?_
  have hidle : ∀ {s2 : Sim} {a : ℕ}, Neutral s2 a → FirmRes (some name) s2 (.wait a (.extraIdle name)) := fun ho => firmRes_wait ho rfl
  cases takeFor name l with
  | error x => exact firms_throw h1
  | ok o =>
    rcases o with _ | ⟨⟨i, d⟩, rest⟩
    · refine firms_bind (firms_quiet h1 fun _ => ⟨rfl, rfl, rfl, rfl, rfl, rfl, rfl, rfl, rfl, rfl⟩) fun _ s2 h2 _ _ => ?_
      refine firms_bind (firms_activateOf h2) fun a s3 h3 _ ho => ?_
      refine firms_bind (firms_get h3) fun gone s4 h4 g4 hg => firms_ite (fun _ => ?_) fun _ => firms_pure h4 (hidle (neutral_spared g4 ho))
      exact firms_bind (firms_renew h4) fun a' s5 h5 _ ho => firms_pure h5 (hidle ho)
    · refine firms_bind (firms_setStarted (l := fun _ => rest) h1) fun _ s2 h2 _ _ => ?_
      refine firms_bind (firms_activateOf h2) fun a s3 h3 _ ho => ?_
      refine firms_bind (firms_get h3) fun busy s4 h4 g4 _ => ?_
      have hrest : ∀ {s5 : Sim}, Firm K s5 → Firms K (do let pro ← process (.localNew name (Desc.run C d)); return .wait pro (.extraMain name pro) : SimM Res) s5 (FirmRes (some name)) := fun h5 =>
        firms_bind (firms_process h5) fun pro s6 h6 _ ho =>
          firms_pure h6 (firmRes_wait ho rfl)
      dsimp only
      exact firms_ite (fun _ => hrest h4) fun _ => firms_bind (firms_succeed h4 (neutral_spared g4 ho)) fun _ s5 h5 _ _ => hrest h5

theorem firms_extraAfterMain {C : Cfg} {name : String} {pro : ℕ} {x : Except PyErr SVal} (h : Firm K s) :
    Firms K (extraAfterMain C name pro x) s (FirmRes (some name)) := by
  rcases x with x | v
  · by_cases hi : x = .interrupt
    · subst hi
      refine firms_bind (firms_get h) fun over s1 h1 g1 _ => ?_
      dsimp only
      exact firms_ite (fun _ => firms_extraLoop h1) fun _ => firms_bind (firms_interrupt h1) fun _ s2 h2 _ _ => firms_extraLoop h2
    · have : extraAfterMain C name pro (.error x) = .throw x := by cases x <;> first | rfl | exact absurd rfl hi
      rw [this]; exact firms_throw h
  · cases v with
    | cont d =>
      exact firms_bind (firms_process h) fun pro s6 h6 _ ho => firms_pure h6 (firmRes_wait ho rfl)
    | nothing => exact firms_extraLoop h
    | procs => exact firms_extraLoop h

theorem firms_extraAfterCont {C : Cfg} {name : String} {x : Except PyErr SVal} (h : Firm K s) : Firms K (extraAfterCont C name x) s (FirmRes (some name)) := by
  rcases x with x | v
  · by_cases hi : x = .interrupt
    · subst hi; exact firms_extraLoop h
    · have : extraAfterCont C name (.error x) = .throw x := by cases x <;> first | rfl | exact absurd rfl hi
      rw [this]; exact firms_throw h
  · exact firms_extraLoop h

theorem firms_interruptExtra {name : String} (h : Firm K s) : Firms K (interruptExtra name) s (fun _ _ => True) := by
  unfold Firms Does interruptExtra
  cases hl : alook name s.extra with
  | none => exact ⟨h, spared_refl _, fun _ _ => trivial⟩
  | some q => exact firms_interrupt h

theorem firms_interruptibles {f : Sim → List (String × ℕ)} (h : Firm K s) : Firms K (SimM.set (fun s => { s with interruptibles := f s })) s (fun _ _ => True) :=
  firms_quiet h fun _ => ⟨rfl, rfl, rfl, rfl, rfl, rfl, rfl, rfl, rfl, rfl⟩

theorem firms_notify {x : PItem} (h : Firm K s) : Firms K (notify x) s (fun _ _ => True) := by
  cases x with
  | procedural => exact firms_throw h
  | gen name i d =>
    refine firms_bind (firms_activateOf h) fun a s1 h1 _ ho => ?_
    refine firms_bind (firms_get h1) fun busy s2 h2 g2 _ => ?_
    refine firms_ite (fun _ => ?_) fun _ => ?_
    · refine firms_bind (firms_get h2) fun old s3 h3 _ _ => ?_
      cases old with
      | none => exact firms_pure h3 trivial
      | some j => exact firms_ite (fun _ => firms_pure h3 trivial) fun _ => firms_bind (firms_interruptibles (f := fun s => aset name i s.interruptibles) h3) fun _ s4 h4 _ _ => firms_interruptExtra h4
    · dsimp only
      exact firms_ite (fun _ => firms_bind (firms_interruptibles (f := fun s => aset name i s.interruptibles) h2) fun _ s4 h4 g4 _ => firms_succeed h4 (neutral_spared g4 (neutral_spared g2 ho))) fun _ => firms_succeed h2 (neutral_spared g2 ho)

theorem firms_notifyAll (l : List PItem) : ∀ {s : Sim}, Firm K s → Firms K (notifyAll l) s (fun _ _ => True) := by
  induction l with
  | nil => intro s h; exact firms_pure h trivial
  | cons x r ih => intro s h; exact firms_bind (firms_notify h) fun _ s1 h1 _ _ => ih h1

theorem firms_procCycle {C : Cfg} {pt : Pt} (h : Firm K s) (hm : pt.module = Option.none) : Firms K (procCycle C pt) s (FirmRes Option.none) :=
  firms_bind (firms_get h) fun now s1 h1 _ _ => firms_bind (firms_process h1) fun pro s2 h2 _ ho => firms_pure h2
    (firmRes_wait ho hm)

theorem firms_procSpins {n : ℕ} (h : Firm K s) : Firms K (procSpins n) s (FirmRes Option.none) :=
  firms_bind (firms_timeout h) fun t s1 h1 _ ho => firms_pure h1 (firmRes_wait ho rfl)

theorem firms_procLoop (h : Firm K s) : Firms K procLoop s (FirmRes Option.none) := by
  unfold procLoop
  refine firms_bind (firms_get h) fun l s1 h1 _ _ => firms_ite (fun _ => ?_) fun _ => ?_
  · refine firms_bind (firms_setStarted (l := fun _ => removeProcedural l) h1) fun _ s2 h2 _ _ => ?_
    exact firms_bind (firms_get h2) fun l s3 h3 _ _ => firms_bind (firms_notifyAll l h3) fun _ s4 h4 _ _ => firms_procSpins h4
  · refine firms_bind (firms_get h1) fun a s2 h2 _ ha => ?_
    refine firms_bind (firms_get h2) fun gone s3 h3 _ hg => firms_ite (fun _ => firms_procSpins h3) fun _ => ?_
    obtain ⟨rfl, rfl⟩ := ha
    obtain ⟨rfl, -⟩ := hg
    exact firms_pure h3 (firmRes_wait h3.proc rfl)

theorem firms_procsReturned {v : SVal} (h : Firm K s) : Firms K (procsReturned v) s (fun _ _ => True) := by
  cases v with
  | procs => exact firms_quiet h fun _ => ⟨rfl, rfl, rfl, rfl, rfl, rfl, rfl, rfl, rfl, rfl⟩
  | nothing => exact firms_throw h
  | cont d => exact firms_throw h

theorem firms_envIter {e : EnvEvent} {k : Mach → Out Mach EnvEvent Unit} (h : Firm K s) : Firms K (envIter e k) s (FirmRes Option.none) :=
  firms_bind (firms_process h) fun pro s1 h1 _ ho => firms_bind (firms_get h1) fun a s2 h2 g2 ha =>
    firms_bind (firms_anyOf h2 (neutral_spared g2 ho) (by obtain ⟨rfl, rfl⟩ := ha; exact h2.env)) fun c s3 h3 g3 hc =>
    firms_pure h3 (firmRes_wait hc rfl)

theorem firm_w (h : Firm K s) (w : Mach) (a : Option EnvArgs) : Firm K { s with w := w, envArgs := a } := firm_aside h ⟨rfl, rfl, rfl, rfl, rfl, rfl, rfl, rfl, rfl, rfl⟩

/-- Running a piece of code from a state that differs in other parts. -/
theorem firms_from {s0 : Sim} (hg : Spared s0 s) {m : SimM A} {Q : Sim → A → Prop} (h : Firms K m s Q) : Firm K (m s).1 ∧ Spared s0 (m s).1 ∧ ∀ a, (m s).2 = .ok a → Q (m s).1 a :=
  ⟨h.1, spared_trans _ _ _ hg h.2.1, h.2.2⟩

theorem firms_envStart {C : Cfg} (h : Firm K s) : Firms K (envStart C) s (FirmRes Option.none) := by
  unfold Firms Does envStart
  cases ha : s.envArgs with
  | none => exact ⟨h, spared_refl _, by simp⟩
  | some a =>
    dsimp only
    have hw : ∀ w, Firm K { s with w := w, envArgs := some a } := fun w => firm_w h w _
    cases envProcess (fun env w => { w with env := some env }) envOf C.upper a.stimuli a.triggers a.times a.startTime s.w with
    | yield w e k => exact firms_from (s := { s with w := w, envArgs := some a }) (spared_aside (aside_w s w _)) (firms_envIter (hw w))
    | ret w r => exact ⟨hw w, spared_aside ⟨rfl, rfl, rfl, rfl, rfl, rfl, rfl, rfl, rfl, rfl⟩, by simp⟩
    | raise w x => exact ⟨hw w, spared_aside ⟨rfl, rfl, rfl, rfl, rfl, rfl, rfl, rfl, rfl, rfl⟩, by simp⟩

theorem firms_startAutomatic {name : String} {i : ℕ} {d : Desc} (h : Firm K s) : Firms K (startAutomatic name i d) s (fun _ _ => True) := by
  unfold startAutomatic
  refine firms_bind (firms_setStarted (l := fun s => s.startedList ++ [.gen name i d]) h) fun _ s1 h1 _ _ => ?_
  refine firms_bind (firms_activateOf h1) fun a s2 h2 _ ho => firms_bind (firms_get h2) fun busy s3 h3 g3 _ => firms_ite (fun _ => ?_) fun _ => ?_
  · refine firms_bind (firms_get h3) fun old s4 h4 _ _ => ?_
    cases old with
    | none => exact firms_throw h4
    | some j => exact firms_bind (firms_interruptibles (f := fun s => aset name i s.interruptibles) h4) fun _ s5 h5 _ _ => firms_interruptExtra h5
  · exact firms_bind (firms_interruptibles (f := fun s => aset name i s.interruptibles) h3) fun _ s5 h5 g5 _ => firms_succeed h5 (neutral_spared g5 (neutral_spared g3 ho))

theorem firms_automatic {name : String} (h : Firm K s) : Firms K (automatic name) s (fun _ _ => True) := by
  unfold Firms Does automatic
  cases s.w.buf name with
  | none => exact ⟨h, spared_refl _, fun _ _ => trivial⟩
  | some b =>
    dsimp only
    cases automaticFor name b s.w.onScreen s.now with
    | none => exact ⟨h, spared_refl _, fun _ _ => trivial⟩
    | some d => exact firms_from (s := { s with w := { s.w with nextId := s.w.nextId + 1 } }) (spared_aside (aside_w s _ _)) (firms_startAutomatic (firm_w h _ _))

theorem firms_automaticAll (l : List String) : ∀ {s : Sim}, Firm K s → Firms K (automaticAll l) s (fun _ _ => True) := by
  induction l with
  | nil => intro s h; exact firms_pure h trivial
  | cons x r ih => intro s h; exact firms_bind (firms_automatic h) fun _ s1 h1 _ _ => ih h1

theorem firms_envNext {pro : ℕ} (h : Firm K s) : Firms K (envNext pro) s (fun _ _ => True) := by
  unfold envNext
  refine firms_bind (firms_get h) fun a s1 h1 g1 _ => firms_bind (firms_get h1) fun pressed s2 h2 g2 _ => firms_ite (fun _ => ?_) fun _ => firms_pure h2 trivial
  refine firms_bind (firms_newEvent h2) fun a' s3 h3 g3 ho => ?_
  have hg : Spared s3 { s3 with envActivate := a' } := spared_same rfl rfl rfl rfl rfl rfl
  exact firms_bind (Q := fun _ _ => True) ⟨firm_move h3 hg (fun _ _ h => .inl h) (fun _ _ h => .inl h) (.inl rfl) (.inr (neutral_spared hg ho)), hg, fun _ _ => trivial⟩ fun _ s4 h4 g4 _ =>
    firms_interrupt h4

theorem firms_envAdvance {k : Mach → Out Mach EnvEvent Unit} (h : Firm K s) : Firms K (envAdvance k) s (FirmRes Option.none) := by
  unfold Firms Does envAdvance
  cases k s.w with
  | yield w e k' => exact firms_from (s := { s with w := w }) (spared_aside (aside_w s _ _)) (firms_bind (firms_automaticAll _ (firm_w h w _)) fun _ s1 h1 _ _ => firms_envIter h1)
  | ret w r => exact ⟨firm_w h w _, spared_aside ⟨rfl, rfl, rfl, rfl, rfl, rfl, rfl, rfl, rfl, rfl⟩, fun a ha => by cases ha; exact firmRes_done⟩
  | raise w x => exact ⟨firm_w h w _, spared_aside ⟨rfl, rfl, rfl, rfl, rfl, rfl, rfl, rfl, rfl, rfl⟩, by simp⟩

theorem firms_envProcStart {e : Ev} (h : Firm K s) : Firms K (envProcStart e) s (FirmRes Option.none) := by
  have ht := firms_timeout (d := e.time - s.now) h
  unfold Firms Does envProcStart
  unfold Firms Does at ht
  rcases hr : timeout (e.time - s.now) s with ⟨s1, x | t⟩
  · rw [hr] at ht
    exact firms_from ht.2.1 (firms_bind (firms_activateProc ht.1) fun _ s2 h2 _ _ => firms_throw h2)
  · rw [hr] at ht
    exact ⟨ht.1, ht.2.1, fun a ha => by cases ha; exact firmRes_wait (ht.2.2 t rfl) rfl⟩

theorem firms_envProcResume {e : Ev} {x : Except PyErr SVal} (h : Firm K s) : Firms K (envProcResume e x) s (FirmRes Option.none) := by
  rcases x with x | v
  · by_cases hi : x = .interrupt
    · subst hi; exact firms_bind (firms_activateProc h) fun _ s1 h1 _ _ => firms_pure h1 firmRes_done
    · have : envProcResume e (.error x) = (do activateProc e; .throw x : SimM Res) := by cases x <;> first | rfl | exact absurd rfl hi
      rw [this]; exact firms_bind (firms_activateProc h) fun _ s1 h1 _ _ => firms_throw h1
  · exact firms_bind (firms_print h) fun _ s1 h1 _ _ => firms_bind (firms_activateProc h1) fun _ s2 h2 _ _ => firms_pure h2 firmRes_done

theorem firms_code {C : Cfg} {pt : Pt} {x : Except PyErr SVal} (h : Firm K s) : Firms K (code C pt x) s (FirmRes pt.module) := by
  cases pt with
  | extraMain name pro => exact firms_extraAfterMain h
  | extraCont name => exact firms_extraAfterCont h
  | localWait name e k => exact firms_localResume h
  | envProc e => exact firms_envProcResume h
  | procNew => rcases x with x | v <;> [exact firms_throw h; exact firms_procCycle h rfl]
  | procFirst => rcases x with x | v <;> [exact firms_throw h; exact firms_bind (firms_procsReturned h) fun _ s1 h1 _ _ => firms_procLoop h1]
  | procIdle => rcases x with x | v <;> [exact firms_throw h; exact firms_procSpins h]
  | procSpin n =>
    rcases x with x | v
    · exact firms_throw h
    · cases n <;> [exact firms_procCycle h rfl; exact firms_procSpins h]
  | procAgain =>
    rcases x with x | v
    · exact firms_throw h
    · refine firms_bind (firms_procsReturned h) fun _ s1 h1 _ _ => firms_bind (firms_newEvent h1) fun a s2 h2 _ ho => ?_
      have hg : Spared s2 { s2 with procActivate := a } := spared_same rfl rfl rfl rfl rfl rfl
      exact firms_bind (Q := fun _ _ => True) ⟨firm_move h2 hg (fun _ _ h => .inl h) (fun _ _ h => .inl h) (.inr (neutral_spared hg ho)) (.inl rfl), hg, fun _ _ => trivial⟩
        fun _ s3 h3 _ _ => firms_procLoop h3
  | extraNew name => rcases x with x | v <;> [exact firms_throw h; exact firms_extraLoop h]
  | extraIdle name => rcases x with x | v <;> [exact firms_throw h; exact firms_bind (firms_renew h) fun _ s1 h1 _ _ => firms_extraLoop h1]
  | localNew name g => rcases x with x | v <;> [exact firms_throw h; exact firms_bind (firms_get h) fun _ s1 h1 _ _ => firms_localRun h1]
  | envNew => rcases x with x | v <;> [exact firms_throw h; exact firms_envStart h]
  | envWait pro k => rcases x with x | v <;> [exact firms_throw h; exact firms_bind (firms_envNext h) fun _ s1 h1 _ _ => firms_envAdvance h1]
  | envProcNew e => rcases x with x | v <;> [exact firms_throw h; exact firms_envProcStart h]

/-! ## Steps -/

theorem firm_ends {pt : Pt} {v : Except PyErr SVal} (h : Firm K s) (hp : s.points p = some pt) (hv : pt.module.isSome → ∃ x, v = .error x) : Firm K (s.ends p v) := by
  have hpts : ∀ q, (s.ends p v).points q = if q = p then Option.none else s.points q := fun q => rfl
  have hcbs : ∀ ev, (s.ends p v).cbs ev = s.cbs ev := fun ev => cbs_trigger _ _ _ _
  have hevs : ∀ q, q ≠ p → (s.ends p v).events q = s.events q := fun q hq => fset_other _ _ hq
  refine ⟨h.lt, fun ev c hm => h.checks ev c (by rw [← hcbs]; exact hm), h.act, h.proc, h.env, fun n e pt' hn hq => ?_, fun en hen => ?_, fun n e hn hq => ?_⟩
  · rw [hpts] at hq
    split at hq
    · cases hq
    · next hne => rw [hevs e hne]; exact h.alive n e pt' hn hq
  · rcases (mem_insertEntry _ _ _).1 hen with rfl | hen
    · exact .inl (by show s.now + 0 ≤ s.now; rw [add_zero])
    · exact h.soon en hen
  · rw [hpts] at hq
    split at hq
    · next he =>
      subst he
      obtain ⟨h1, h2⟩ := h.alive n e pt hn hp
      obtain ⟨x, rfl⟩ := hv (by rw [h1]; rfl)
      refine ⟨x, some [], ?_, .inl rfl⟩
      show fset s.events e _ e = _
      rw [fset_same]
      show (⟨_, (s.events e).defused, (s.events e).callbacks⟩ : SEv) = _
      rw [h2]
    · next hne => rw [hevs e hne]; exact h.dead n e hn hq

theorem firm_waits {pt pt' : Pt} {ev : ℕ} (h : Firm K s) (hp : s.points p = some pt) (hm : pt'.module = pt.module) (ho : Neutral s ev) : Firm K (s.waits p ev pt') := by
  have hpts : ∀ q, (s.waits p ev pt').points q = if q = p then some pt' else s.points q := fun q => rfl
  have h1 : Firm K ({ s with points := fset s.points p (some pt'), target := fset s.target p ev } : Sim) := by
    refine ⟨h.lt, h.checks, h.act, h.proc, h.env, fun n e q hn hq => ?_, h.soon, fun n e hn hq => ?_⟩
    · change fset _ _ _ _ = _ at hq
      by_cases he : e = p
      · subst he; rw [fset_same] at hq; cases hq; rw [hm]; exact h.alive n e pt hn hp
      · rw [fset_other _ _ he] at hq; exact h.alive n e q hn hq
    · change fset _ _ _ _ = _ at hq
      by_cases he : e = p
      · subst he; rw [fset_same] at hq; cases hq
      · rw [fset_other _ _ he] at hq; exact h.dead n e hn hq
  exact (firm_addCallback h1 ho (fun x hx => by cases hx)).1

theorem firm_resume (C : Cfg) {x : Except PyErr SVal} (h : Firm K s) (hv : Vacant s) : Firm K (s.resume C p x) ∧ (s.resume C p x).extra = s.extra := by
  cases hpt : s.points p with
  | none => unfold Sim.resume; rw [hpt]; exact ⟨h, rfl⟩
  | some pt =>
    have hlt : p < s.next := by
      by_contra hl
      rw [hv p (not_lt.1 hl)] at hpt; cases hpt
    have hc := firms_code (C := C) (pt := pt) (x := x) h
    unfold Firms Does at hc
    rw [resume_eq C hpt]
    rcases hr : code C pt x s with ⟨s1, e | r⟩
    · rw [hr] at hc
      exact ⟨firm_ends hc.1 ((hc.2.1.pts p hlt).trans hpt) fun _ => ⟨e, rfl⟩, hc.2.1.extra⟩
    · rw [hr] at hc
      have hp1 : s1.points p = some pt := (hc.2.1.pts p hlt).trans hpt
      cases r with
      | done v =>
        refine ⟨firm_ends hc.1 hp1 fun h2 => ?_, hc.2.1.extra⟩
        rw [(hc.2.2 _ rfl).done v rfl] at h2; cases h2
      | wait ev pt' =>
        obtain ⟨a1, a2⟩ := (hc.2.2 _ rfl).wait ev pt' rfl
        exact ⟨firm_waits hc.1 hp1 a2 a1, hc.2.1.extra⟩


theorem firm_callback (C : Cfg) {ev : ℕ} {v : Except PyErr SVal} {cb : Callback} (h : Firm K s) (hv : Vacant s) (hev : Neutral s ev) (hs : ∀ c, cb = .check c → Neutral s c) :
    Firm K (callback C ev v s cb) ∧ (callback C ev v s cb).extra = s.extra := by
  cases cb with
  | resume p =>
    unfold callback
    rcases v with x | v
    · exact firm_resume C (firm_defuse h hev).1 hv
    · exact firm_resume C h hv
  | interrupt p =>
    unfold callback
    dsimp only
    split
    · exact ⟨h, rfl⟩
    · exact firm_resume C (firm_drop h).1 hv
  | check c =>
    unfold callback
    dsimp only
    split
    · exact ⟨h, rfl⟩
    · rcases v with x | v
      · exact ⟨(firm_trigger (firm_defuse h hev).1 (neutral_spared (firm_defuse h hev).2 (hs c rfl))).1, rfl⟩
      · exact ⟨(firm_trigger h (hs c rfl)).1, rfl⟩
  | build c a b => exact ⟨(firm_drop (firm_drop h).1).1, rfl⟩
  | stop => exact ⟨h, rfl⟩

theorem firm_foldl (C : Cfg) {ev : ℕ} {v : Except PyErr SVal} (l : List Callback) : ∀ {s : Sim}, Firm K s → Propped l s → (l ≠ [] → Neutral s ev) → (∀ c, .check c ∈ l → Neutral s c) →
    Firm K (l.foldl (callback C ev v) s) ∧ (l.foldl (callback C ev v) s).extra = s.extra := by
  induction l with
  | nil => intro s h _ _ _; exact ⟨h, rfl⟩
  | cons cb l ih =>
    intro s h hp hev hs
    obtain ⟨h1, h2⟩ := firm_callback C (v := v) (cb := cb) h hp.vacant (hev (by simp)) fun c hc => hs c (by simp [hc])
    have keep : ∀ a, Neutral s a → Neutral (callback C ev v s cb) a := fun a ha n hn => ha n (by rw [← h2]; exact hn)
    obtain ⟨h3, h4⟩ := ih h1 (propped_callback C hp) (fun _ => keep _ (hev (by simp))) fun c hc => keep _ (hs c (by simp [hc]))
    exact ⟨h3, h4.trans h2⟩

theorem firm_taken {en : Entry} {q : List Entry} (h : Firm K s) (hi : Inv s) (hq : s.queue = en :: q) (hk : ¬ Neutral s en.ev → K) : Firm K (s.taken en q) := by
  have hcb : ∀ ev cb, cb ∈ (s.taken en q).cbs ev → cb ∈ s.cbs ev := fun ev cb hm => by
    have hm : _ ∈ ((fset s.events en.ev _ ev).callbacks).getD [] := hm
    by_cases he : ev = en.ev
    · subst he; rw [fset_same] at hm; cases hm
    · rw [fset_other _ _ he] at hm; exact hm
  refine ⟨h.lt, fun ev c hm => h.checks ev c (hcb ev _ hm), h.act, h.proc, h.env, fun n e pt hn hp => ?_, fun x hx => ?_, fun n e hn hp => ?_⟩
  · obtain ⟨a1, a2⟩ := h.alive n e pt hn hp
    have hne : e ≠ en.ev := fun he => by
      have := hi.queued en (by rw [hq]; exact .head _)
      rw [← he, a2] at this; exact absurd this (by simp)
    exact ⟨a1, (fset_other _ _ hne).trans a2⟩
  · exact (h.soon x (by rw [hq]; exact .tail _ hx)).imp_left fun h1 => h1.trans (hi.ahead en (by rw [hq]; exact .head _))
  · obtain ⟨x, l, h1, h2⟩ := h.dead n e hn hp
    by_cases he : e = en.ev
    · refine ⟨x, Option.none, ?_, .inr ⟨hk fun hne => hne n (he ▸ hn), rfl⟩⟩
      show fset s.events en.ev _ e = _
      rw [← he, fset_same, h1]
    · exact ⟨x, l, (fset_other _ _ he).trans h1, h2⟩

theorem firm_called {C : Cfg} {en : Entry} {q : List Entry} (h : Firm K s) (hp : Propped [] s) (hi : Inv s) (hq : s.queue = en :: q) (hk : ¬ Neutral s en.ev → K) :
    Firm K (s.called C en q) ∧ (s.called C en q).extra = s.extra := by
  refine firm_foldl C _ (firm_taken h hi hq hk) (propped_taken hp hi hq).1 (fun hl n hn => hl ?_) fun c hc => h.checks _ _ hc
  exact firm_cbs h hn

theorem firm_step {C : Cfg} (h : Firm K s) (hp : Propped [] s) (hi : Inv s) (hk : ∀ en q, s.queue = en :: q → ¬ Neutral s en.ev → K) (hs : Stepped.leads (s.step C) s') :
    Firm K s' ∧ s'.extra = s.extra := by
  rcases step_cases (C := C) (s := s) rfl with ⟨h0, _⟩ | ⟨en, q, hq, ⟨hst, h0⟩ | ⟨_, h0 | ⟨x, h0⟩⟩⟩ <;> rw [h0] at hs <;> rcases hs with hs | hs | ⟨_, hs⟩ <;> cases hs
  · exact ⟨firm_taken h hi hq (hk en q hq), rfl⟩
  · exact firm_called h hp hi hq (hk en q hq)
  · exact firm_called h hp hi hq (hk en q hq)

/-- The end of the process of a module raises its exception. -/
theorem step_module {C : Cfg} (h : Firm K s) (hi : Inv s) {en : Entry} {q : List Entry} (hq : s.queue = en :: q) {n : String} (hn : (n, en.ev) ∈ s.extra) :
    ∃ x, s.step C = .raised (s.called C en q) x ∧ (s.events en.ev).value = some (.error x) := by
  have hv := hi.queued en (by rw [hq]; exact .head _)
  cases hp : s.points en.ev with
  | some pt => rw [(h.alive n _ pt hn hp).2] at hv; exact absurd hv (by simp)
  | none =>
    obtain ⟨x, l, h1, h2⟩ := h.dead n _ hn hp
    have hc : s.cbs en.ev = [] := firm_cbs h hn
    refine ⟨x, ?_, by rw [h1]⟩
    rw [step_eq, hq]
    dsimp only
    have hd : ((s.called C en q).events en.ev).defused = false := by
      unfold Sim.called
      rw [hc]
      show (fset s.events en.ev _ en.ev).defused = _
      rw [fset_same, h1]
    rw [if_neg (by rw [hc]; simp), h1]
    dsimp only [Option.getD]
    rw [if_neg (by rw [hd]; simp)]

/-! ## All states -/

theorem initExtra_first (n : String) (r : List String) (s : Sim) : initExtra (n :: r) s = if n = procName then initExtra r s else
    initExtra r { (newEvent (process (.extraNew n) s).1).1 with extra := s.extra ++ [(n, s.next)], activate := s.activate ++ [(n, s.next + 2)] } := by
  conv_lhs => unfold initExtra
  split <;> rfl

/-- Nothing is known about numbers that are not in use yet. -/
structure Young (s : Sim) : Prop where
  checks : ∀ ev c, .check c ∉ s.cbs ev
  act : ∀ n a, (n, a) ∈ s.activate → a < s.next
  proc : s.procActivate < s.next
  env : s.envActivate < s.next
  queue : ∀ en ∈ s.queue, en.ev < s.next

theorem firm_initExtra : ∀ (l : List String) {s : Sim}, Firm K s → Young s →
    Firm K (initExtra l s).1 ∧ (initExtra l s).1.extra.map Prod.fst = s.extra.map Prod.fst ++ l.filter (fun n => decide (n ≠ procName))
  | [], s, h, _ => ⟨h, by show s.extra.map Prod.fst = _; simp⟩
  | n :: r, s, h, hy => by
    rw [initExtra_first]
    split
    · next hn =>
      obtain ⟨h1, h2⟩ := firm_initExtra r h hy
      exact ⟨h1, by rw [h2]; simp [hn]⟩
    · next hn =>
      set s3 : Sim := { (newEvent (process (.extraNew n) s).1).1 with extra := s.extra ++ [(n, s.next)], activate := s.activate ++ [(n, s.next + 2)] } with hs3
      have hnx : s3.next = s.next + 3 := rfl
      have hx : s3.extra = s.extra ++ [(n, s.next)] := rfl
      have ha : s3.activate = s.activate ++ [(n, s.next + 2)] := rfl
      have hev : ∀ ev, ev ≠ s.next → ev ≠ s.next + 1 → ev ≠ s.next + 2 → s3.events ev = s.events ev := fun ev h1 h2 h3 => by
        show fset (fset (fset s.events s.next _) (s.next + 1) _) (s.next + 2) _ ev = _
        rw [fset_other _ _ h3, fset_other _ _ h2, fset_other _ _ h1]
      have hev0 : s3.events s.next = ⟨Option.none, false, some []⟩ := by
        show fset (fset (fset s.events s.next _) (s.next + 1) _) (s.next + 2) _ s.next = _
        rw [fset_other _ _ (by omega), fset_other _ _ (by omega), fset_same]
      have hpt : ∀ q, s3.points q = if q = s.next then some (.extraNew n) else s.points q := fun q => rfl
      have hcb : ∀ ev c, .check c ∉ s3.cbs ev := fun ev c hm => by
        have hm : .check c ∈ (SEv.callbacks (fset (fset (fset s.events s.next _) (s.next + 1) _) (s.next + 2) _ ev)).getD [] := hm
        by_cases h3 : ev = s.next + 2
        · subst h3; rw [fset_same] at hm; simp at hm
        · rw [fset_other _ _ h3] at hm
          by_cases h3 : ev = s.next + 1
          · subst h3; rw [fset_same] at hm; simp at hm
          · rw [fset_other _ _ h3] at hm
            by_cases h3 : ev = s.next
            · subst h3; rw [fset_same] at hm; simp at hm
            · rw [fset_other _ _ h3] at hm; exact hy.checks ev c hm
      have hin : ∀ m e, (m, e) ∈ s3.extra → (m, e) ∈ s.extra ∨ (m = n ∧ e = s.next) := fun m e hm => by
        rw [hx] at hm
        rcases List.mem_append.1 hm with hm | hm
        · exact .inl hm
        · simp only [List.mem_singleton, Prod.mk.injEq] at hm; exact .inr hm
      have hneu : ∀ a, a ≠ s.next → Neutral s a → Neutral s3 a := fun a hne hn m hm => (hin m a hm).elim (hn m) fun h => hne h.2
      have hfar : ∀ a, s.next ≤ a → Neutral s a := fun a hle m hm => by have := h.lt m a hm; omega
      have hact : ∀ m a, (m, a) ∈ s3.activate → (m, a) ∈ s.activate ∨ a = s.next + 2 := fun m a hm => by
        rw [ha] at hm
        rcases List.mem_append.1 hm with hm | hm
        · exact .inl hm
        · simp only [List.mem_singleton, Prod.mk.injEq] at hm; exact .inr hm.2
      have hsch : ∀ en ∈ s3.queue, en ∈ s.queue ∨ en.ev = s.next + 1 := fun en hen => by
        rcases (mem_insertEntry _ _ _).1 hen with rfl | hen
        · exact .inr rfl
        · exact .inl hen
      have h3 : Firm K s3 := by
        refine ⟨fun m e hm => ?_, fun ev c hm => absurd hm (hcb ev c), fun m a hm => ?_, hneu _ (Nat.ne_of_lt hy.proc) h.proc, hneu _ (Nat.ne_of_lt hy.env) h.env, fun m e pt hm hp => ?_, fun en hen => ?_, fun m e hm hp => ?_⟩
        · rcases hin m e hm with hm | ⟨-, rfl⟩
          · have := h.lt m e hm; omega
          · omega
        · rcases hact m a hm with hm | rfl
          · exact hneu _ (Nat.ne_of_lt (hy.act m a hm)) (h.act m a hm)
          · exact hneu _ (by omega) (hfar _ (by omega))
        · rw [hpt] at hp
          rcases hin m e hm with hm | ⟨rfl, rfl⟩
          · have := h.lt m e hm
            rw [if_neg (by omega)] at hp
            rw [hev e (by omega) (by omega) (by omega)]
            exact h.alive m e pt hm hp
          · rw [if_pos rfl] at hp
            cases hp
            exact ⟨rfl, hev0⟩
        · rcases hsch en hen with hen | he
          · exact (h.soon en hen).imp_right (hneu _ (Nat.ne_of_lt (hy.queue en hen)))
          · exact .inr (hneu _ (by omega) (hfar _ (by omega)))
        · rw [hpt] at hp
          rcases hin m e hm with hm | ⟨rfl, rfl⟩
          · have := h.lt m e hm
            rw [if_neg (by omega)] at hp
            rw [hev e (by omega) (by omega) (by omega)]
            exact h.dead m e hm hp
          · rw [if_pos rfl] at hp; cases hp
      have hy3 : Young s3 := by
        refine ⟨hcb, fun m a hm => ?_, by have : s3.procActivate = s.procActivate := rfl
                                          have := hy.proc; omega, by have : s3.envActivate = s.envActivate := rfl
                                                                     have := hy.env; omega, fun en hen => ?_⟩
        rotate_left
        · rcases hsch en hen with hen | he
          · have := hy.queue en hen; omega
          · omega
        rcases hact m a hm with hm | rfl
        · have := hy.act m a hm; omega
        · omega
      obtain ⟨h1, h2⟩ := firm_initExtra r h3 hy3
      exact ⟨h1, by rw [h2, hx]; simp [hn]⟩

theorem firm_init (w : Mach) (args : Option EnvArgs) (t : ℚ) :
    Firm K (Sim.init w args t) ∧ (Sim.init w args t).extra.map Prod.fst = (w.bufs.map Prod.fst).filter (fun n => decide (n ≠ procName)) := by
  set s := (process .procNew (Sim.blank w args t)).1 with hs
  have hx : s.extra = [] := rfl
  have hn : s.next = 4 := rfl
  have hcb : ∀ ev c, .check c ∉ s.cbs ev := fun ev c hm => by
    have hm : .check c ∈ (SEv.callbacks (fset (fset (Sim.blank w args t).events 2 _) 3 _ ev)).getD [] := hm
    by_cases h3 : ev = 3
    · subst h3; rw [fset_same] at hm; simp at hm
    · rw [fset_other _ _ h3] at hm
      by_cases h2 : ev = 2
      · subst h2; rw [fset_same] at hm; simp at hm
      · rw [fset_other _ _ h2] at hm
        simp only [Sim.blank] at hm
        split at hm <;> simp at hm
  have hneu : ∀ a, Neutral s a := fun a n hm => by rw [hx] at hm; cases hm
  have h0 : Firm K s := ⟨fun n e hm => absurd hm (hneu e n), fun _ _ _ => hneu _, fun _ _ _ => hneu _, hneu _, hneu _, fun n e _ hm => absurd hm (hneu e n), fun _ _ => .inr (hneu _), fun n e hm => absurd hm (hneu e n)⟩
  have hy : Young s := ⟨hcb, fun n a hm => absurd (show (n, a) ∈ ([] : List (String × ℕ)) from hm) List.not_mem_nil, by show 0 < 4; omega, by show 1 < 4; omega, fun en hen => by
    have hen : en ∈ insertEntry _ [] := hen
    rcases (mem_insertEntry _ _ _).1 hen with rfl | hen
    · show 3 < 4; omega
    · cases hen⟩
  obtain ⟨h1, h2⟩ := firm_initExtra (w.bufs.map Prod.fst) h0 hy
  have : Firms K (if w.env.isSome then do
      let _ ← process .envNew
      pure ()
    else pure () : SimM Unit) (initExtra (w.bufs.map Prod.fst) s).1 (fun _ _ => True) := by
    split
    · exact firms_bind (firms_process h1) fun _ s3 h3 _ _ => firms_pure h3 trivial
    · exact firms_pure h1 trivial
  obtain ⟨h3, g3, -⟩ := this
  have hok : ∀ (l : List String) (s : Sim), (initExtra l s).2 = .ok () := fun l => by
    induction l with
    | nil => intro s; rfl
    | cons n r ih => intro s; rw [initExtra_first]; split <;> exact ih _
  have heq : Sim.init w args t = ((if w.env.isSome then do
      let _ ← process .envNew
      pure ()
    else pure () : SimM Unit) (initExtra (w.bufs.map Prod.fst) s).1).1 := by
    unfold Sim.init
    have hb : ∀ (m : SimM Unit) (k : Unit → SimM Unit) (s : Sim), (m s).2 = .ok () → ((m >>= k) s).1 = (k () (m s).1).1 := fun m k s h => by
      show (SimM.bind m k s).1 = _
      unfold SimM.bind
      rcases hm : m s with ⟨s', r⟩
      rw [hm] at h
      cases h; rfl
    exact hb _ _ _ (hok _ _)
  rw [heq]
  exact ⟨h3, by rw [g3.extra, h2, hx]; rfl⟩

theorem firm_setStop {q : ℚ} (h : Firm K s) : Firm K (s.setStop q).1 ∧ (s.setStop q).1.extra = s.extra := by
  unfold Sim.setStop
  split
  · exact ⟨h, rfl⟩
  · exact ⟨(firm_timer h (by simp)).2.1, rfl⟩

theorem firm_compile {C : Cfg} (h : Firm K s) : Firm K (compileAtEnd C s).1 ∧ (compileAtEnd C s).1.extra = s.extra := by
  unfold compileAtEnd
  split
  · split <;> exact ⟨firm_aside h ⟨rfl, rfl, rfl, rfl, rfl, rfl, rfl, rfl, rfl, rfl⟩, rfl⟩
  · exact ⟨h, rfl⟩

theorem firm_reachable {C : Cfg} {w : Mach} {args : Option EnvArgs} {t : ℚ} (h : Reachable C w args t s) :
    Firm True s ∧ s.extra = (Sim.init w args t).extra := by
  have key : ∀ {s s' : Sim}, Reachable C w args t s → Stepped.leads (s.step C) s' → Firm True s ∧ s.extra = (Sim.init w args t).extra → Firm True s' ∧ s'.extra = (Sim.init w args t).extra :=
    fun hr hs ih => by
      obtain ⟨h1, h2⟩ := firm_step ih.1 (propped_reachable hr) (fine_reachable hr).1 (fun _ _ _ _ => trivial) hs
      exact ⟨h1, h2.trans ih.2⟩
  induction h with
  | init => exact ⟨(firm_init w args t).1, rfl⟩
  | @stop _ _ q _ _ hs ih =>
    obtain ⟨h1, h2⟩ := firm_setStop (q := q) ih.1
    rw [hs] at h1 h2
    exact ⟨h1, h2.trans ih.2⟩
  | step hr hs ih => exact key hr (.inl hs) ih
  | stopped hr hs ih => exact key hr (.inr (.inl hs)) ih
  | raised hr hs ih => exact key hr (.inr (.inr ⟨_, hs⟩)) ih
  | compile _ hs ih =>
    obtain ⟨h1, h2⟩ := firm_compile (C := C) ih.1
    rw [hs] at h1 h2
    exact ⟨h1, h2.trans ih.2⟩

/-- As long as no exception is raised, no process of a module has ended. -/
theorem firm_unraised {C : Cfg} {w : Mach} {args : Option EnvArgs} {t : ℚ} (h : Unraised C w args t s) : Firm False s := by
  have key : ∀ {s s' : Sim}, Unraised C w args t s → (s.step C = .ok s' ∨ s.step C = .stopped s') → Firm False s → Firm False s' := fun {s s'} hu hs ih => by
    have hr := reachable_unraised hu
    have hi := (fine_reachable hr).1
    refine (firm_step ih (propped_reachable hr) hi (fun en q hq hn => ?_) (hs.imp id .inl)).1
    unfold Neutral at hn
    push_neg at hn
    obtain ⟨n, hn⟩ := hn
    obtain ⟨x, hx, _⟩ := step_module (C := C) ih hi hq hn
    rw [hx] at hs
    rcases hs with hs | hs <;> cases hs
  induction h with
  | init => exact (firm_init w args t).1
  | stop q _ ih => exact (firm_setStop ih).1
  | step hr hs ih => exact key hr (.inl hs) ih
  | stopped hr hs ih => exact key hr (.inr hs) ih
  | compile _ ih => exact (firm_compile ih).1

end Verif
