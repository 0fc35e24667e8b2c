import Verif.Lemmas.Asking
import Verif.Lemmas.Lined
/-! # Where requests come from: the code of processes -/
namespace Verif
open Verif.Spec

variable {A B : Type} {s s' : Sim} {p c : ℕ} {C : Cfg}

/-! ## What is known -/

/-- What a proof may assume: `G` of rules that could fire, `K` of what was found. -/
structure Sources where
  G : Firing → Prop
  K : Firing → String → RVal → Haul → Prop

variable {S : Sources}

/-- What was found, or that nothing was, has been asked for by a rule that fired. -/
def ToldBy (S : Sources) (tr : List (ℚ × Ev)) (name : String) (r : Option Haul) : Prop :=
  ∃ f v, S.G f ∧ AsksFor f name (.retrieveorset name v f.bv f.time) ∧ HasFired tr f ∧ ∀ c, r = some c → S.K f name v c

/-- What a process goes on with has been asked for by a rule that fired. -/
def KeptBy (S : Sources) (tr : List (ℚ × Ev)) (d : Desc) : Prop := ∀ n c, d.kept = some (n, c) → ToldBy S tr n (some c)

/-- The process for an action of a rule has been asked for by a rule that fired. -/
def Due (S : Sources) (tr : List (ℚ × Ev)) (name : String) (d : Desc) : Prop := (ByRule d → ∃ f, S.G f ∧ AsksFor f name d ∧ HasFired tr f) ∧ KeptBy S tr d

/-- A process that goes on. -/
def Rooted (S : Sources) (tr : List (ℚ × Ev)) (d : Desc) : Prop := ¬ ByRule d ∧ KeptBy S tr d

/-- Requests, values of events, and reports. -/
structure Base (S : Sources) (s : Sim) : Prop where
  procs : ∀ n i d, .gen n i d ∈ s.w.procs → Due S s.trace n d
  own : ∀ l, s.started = some l → ∀ n i d, .gen n i d ∈ l → Due S s.trace n d
  conts : ∀ ev d, (s.events ev).value = some (.ok (.cont d)) → Rooted S s.trace d
  told : ∀ l1 q e l2, s.trace = l1 ++ (q, e) :: l2 → ∀ r, e.act.told = some r → ToldBy S l1 e.proc r

/-- What is known of processes other than the one that goes through the cycle of the rules. -/
def Mine (C : Cfg) (S : Sources) (tr : List (ℚ × Ev)) (p : ℕ) : Pt → Prop
  | .localNew name g => ∃ d, g = d.run C ∧ Due S tr name d
  | .localWait name e k => (∀ r, e.act.told = some r → ToldBy S tr e.proc r) ∧
      ∃ d ph, Due S tr name d ∧ (∀ r, ph = some r → ∀ n v bv t, d = .retrieveorset n v bv t → ToldBy S tr n r) ∧ ∀ w, Serves C d ph w (k w)
  | .envWait _ k => ∀ w, (k w).Moves Passive w
  | .envProcNew e => e.act.told = Option.none
  | .envProc e => e.act.told = Option.none
  | .procNew => p = 2
  | .procFirst => p = 2
  | .procIdle => p = 2
  | .procSpin _ => p = 2
  | .procAgain => p = 2
  | _ => True

/-- What is known of the phase of the cycle. -/
def AskOk (S : Sources) (tr : List (ℚ × Ev)) (e : Ev) : Ask → Prop
  | .none => True
  | .tested f => S.G f
  | .fired f => S.G f ∧ (e = ⟨round4 f.time, procName, .fired f.name⟩ ∨ HasFired tr f)

/-- What is known of the process that goes through the cycle. -/
def RulePt (C : Cfg) (S : Sources) (tr : List (ℚ × Ev)) (w : Mach) : Pt → Prop
  | .localNew _ g => ∃ t, g = genProcedural C t
  | .localWait _ e k => e.act.told = Option.none ∧ ∃ ph, AskOk S tr e ph ∧ ∀ w', Own w w' → Fires C ph w' (k w')
  | _ => False

theorem hasFired_mono {l l' : List (ℚ × Ev)} (h : l <+: l') {f : Firing} (hf : HasFired l f) : HasFired l' f := by
  obtain ⟨x, hx, he⟩ := hf
  exact ⟨x, h.subset hx, he⟩

/-- More is known. -/
structure Wider (S S' : Sources) : Prop where
  G : ∀ f, S.G f → S'.G f
  K : ∀ f n v c, S.K f n v c → S'.K f n v c

theorem wider_refl (S : Sources) : Wider S S := ⟨fun _ h => h, fun _ _ _ _ h => h⟩

variable {S' : Sources} {tr tr' : List (ℚ × Ev)}

theorem told_mono (hS : Wider S S') (h : tr <+: tr') {n : String} {r : Option Haul} (hd : ToldBy S tr n r) : ToldBy S' tr' n r := by
  obtain ⟨f, v, h1, h2, h3, h4⟩ := hd
  exact ⟨f, v, hS.G f h1, h2, hasFired_mono h h3, fun c hc => hS.K _ _ _ _ (h4 c hc)⟩
theorem kept_mono (hS : Wider S S') (h : tr <+: tr') {d : Desc} (hd : KeptBy S tr d) : KeptBy S' tr' d := fun n c hc => told_mono hS h (hd n c hc)
theorem due_mono (hS : Wider S S') (h : tr <+: tr') {n : String} {d : Desc} (hd : Due S tr n d) : Due S' tr' n d := ⟨fun hb => by
  obtain ⟨f, h1, h2, h3⟩ := hd.1 hb
  exact ⟨f, hS.G f h1, h2, hasFired_mono h h3⟩, kept_mono hS h hd.2⟩
theorem rooted_mono (hS : Wider S S') (h : tr <+: tr') {d : Desc} (hd : Rooted S tr d) : Rooted S' tr' d := ⟨hd.1, kept_mono hS h hd.2⟩
theorem due_rooted {n : String} {d : Desc} (h : Rooted S tr d) : Due S tr n d := ⟨fun hb => absurd hb h.1, h.2⟩
theorem rooted_plain {d : Desc} (h : ¬ ByRule d ∧ d.kept = Option.none) : Rooted S tr d := ⟨h.1, fun n c hc => by rw [h.2] at hc; cases hc⟩
theorem mine_mono (hS : Wider S S') (h : tr <+: tr') {pt : Pt} (hm : Mine C S tr p pt) : Mine C S' tr' p pt := by
  cases pt with
  | localNew name g => obtain ⟨d, h1, h2⟩ := hm; exact ⟨d, h1, due_mono hS h h2⟩
  | localWait name e k =>
    obtain ⟨h1, d, ph, h2, h3, h4⟩ := hm
    exact ⟨fun r hr => told_mono hS h (h1 r hr), d, ph, due_mono hS h h2, fun r hr n v bv t hd => told_mono hS h (h3 r hr n v bv t hd), h4⟩
  | _ => exact hm
theorem askOk_mono (hS : Wider S S') (h : tr <+: tr') {e : Ev} {ph : Ask} (ha : AskOk S tr e ph) : AskOk S' tr' e ph := by
  cases ph with
  | none => trivial
  | tested f => exact hS.G f ha
  | fired f => exact ⟨hS.G f ha.1, ha.2.imp id (hasFired_mono h)⟩
theorem rulePt_mono (hS : Wider S S') (h : tr <+: tr') {w w' : Mach} (ho : Own w w') {pt : Pt} (hm : RulePt C S tr w pt) : RulePt C S' tr' w' pt := by
  cases pt with
  | localNew name g => exact hm
  | localWait name e k =>
    obtain ⟨h1, ph, h2, h3⟩ := hm
    exact ⟨h1, ph, askOk_mono hS h h2, fun w'' h' => h3 w'' (own_trans ho h')⟩
  | _ => exact hm

/-! ## What code does -/

/-- What the code of processes does, apart from the process that goes through the cycle of the rules. -/
structure Eff (C : Cfg) (S : Sources) (s s' : Sim) : Prop where
  next : s.next ≤ s'.next
  trace : s.trace <+: s'.trace
  own : Own s.w s'.w
  target : ∀ p < s.next, s'.target p = s.target p
  base : Base S s → Base S s' ∧ ∀ p pt, s'.points p = some pt → s.points p = some pt ∨ (s.next ≤ p ∧ Mine C S s'.trace p pt)

theorem eff_refl (s : Sim) : Eff C S s s := ⟨le_rfl, List.prefix_rfl, own_refl _, fun _ _ => rfl, fun h => ⟨h, fun _ _ h => .inl h⟩⟩
theorem eff_trans {a b c : Sim} (h1 : Eff C S a b) (h2 : Eff C S b c) : Eff C S a c := by
  refine ⟨h1.next.trans h2.next, h1.trace.trans h2.trace, own_trans h1.own h2.own, fun p hp => (h2.target p (hp.trans_le h1.next)).trans (h1.target p hp), fun h => ?_⟩
  obtain ⟨b1, p1⟩ := h1.base h
  obtain ⟨b2, p2⟩ := h2.base b1
  refine ⟨b2, fun p pt hp => ?_⟩
  rcases p2 p pt hp with hp | ⟨hp, hm⟩
  · rcases p1 p pt hp with hp | ⟨hp, hm⟩
    · exact .inl hp
    · exact .inr ⟨hp, mine_mono (wider_refl S) h2.trace hm⟩
  · exact .inr ⟨h1.next.trans hp, hm⟩

/-- No new continuations. -/
def NoConts (s s' : Sim) : Prop := ∀ ev d, (s'.events ev).value = some (.ok (.cont d)) → (s.events ev).value = some (.ok (.cont d))

theorem base_same (h1 : s'.trace = s.trace) (h2 : s'.w.procs = s.w.procs) (h3 : s'.started = s.started) (h4 : NoConts s s') (h : Base S s) : Base S s' :=
  ⟨by rw [h1, h2]; exact h.procs, by rw [h1, h3]; exact h.own, fun ev d hv => h1 ▸ h.conts ev d (h4 ev d hv), by rw [h1]; exact h.told⟩

theorem eff_same (h0 : s.next ≤ s'.next) (h1 : s'.trace = s.trace) (h2 : Passive s.w s'.w) (h3 : s'.started = s.started) (h4 : NoConts s s') (h5 : s'.points = s.points) (h6 : s'.target = s.target) : Eff C S s s' :=
  ⟨h0, h1 ▸ List.prefix_rfl, h2.1, fun p _ => by rw [h6], fun h => ⟨base_same h1 h2.2 h3 h4 h, fun p pt hp => .inl (h5 ▸ hp)⟩⟩

theorem noConts_refl (s : Sim) : NoConts s s := fun _ _ h => h
theorem noConts_alloc {E : SEv} (hE : ∀ d, E.value ≠ some (.ok (.cont d))) (s : Sim) : NoConts s (s.alloc E) := fun ev d hv => by
  by_cases he : ev = s.next
  · subst he; rw [events_alloc_new] at hv; exact absurd hv (hE d)
  · rw [events_alloc_old he] at hv; exact hv
theorem noConts_trigger {ev : ℕ} {v : Except PyErr SVal} (hv : ∀ d, v ≠ .ok (.cont d)) (s : Sim) : NoConts s (s.trigger ev v) := fun x d hx => by
  have hx : (fset s.events ev { s.events ev with value := some v } x).value = _ := hx
  by_cases he : x = ev
  · subst he; rw [fset_same] at hx; exact absurd (Option.some.inj hx) (hv d)
  · rw [fset_other _ _ he] at hx; exact hx

/-- Code that behaves like this. -/
def Effy (C : Cfg) (S : Sources) (m : SimM A) : Prop := ∀ s : Sim, Eff C S s (m s).1

theorem effy_bind {m : SimM A} {f : A → SimM B} (hm : Effy C S m) (hf : ∀ a, Effy C S (f a)) : Effy C S (m >>= f) := by
  intro s
  show Eff C S s (SimM.bind m f s).1
  unfold SimM.bind
  have h1 := hm s
  rcases h : m s with ⟨s1, e | a⟩
  · rw [h] at h1; exact h1
  · rw [h] at h1; exact eff_trans h1 (hf a s1)

theorem effy_pure {a : A} : Effy C S (pure a) := fun s => eff_refl s
theorem effy_throw {e : PyErr} : Effy C S (SimM.throw e : SimM A) := fun s => eff_refl s
theorem effy_get {f : Sim → A} : Effy C S (SimM.get f) := fun s => eff_refl s
theorem effy_set {f : Sim → Sim} (h : ∀ s : Sim, (f s).next = s.next ∧ (f s).trace = s.trace ∧ (f s).started = s.started ∧ (f s).w.procs = s.w.procs ∧ (f s).events = s.events ∧ (f s).points = s.points ∧
    (f s).target = s.target ∧ (f s).w.bv = s.w.bv ∧ (f s).w.rules = s.w.rules) : Effy C S (SimM.set f) := fun s => by
  obtain ⟨h1, h2, h3, h4, h5, h6, h7, h8, h9⟩ := h s
  exact eff_same h1.ge h2 ⟨own_same h8 h9, h4⟩ h3 (fun ev d hv => by
    change ((f s).events ev).value = _ at hv
    rw [h5] at hv; exact hv) h6 h7

theorem eff_alloc {E : SEv} (hE : ∀ d, E.value ≠ some (.ok (.cont d))) (s : Sim) : Eff C S s (s.alloc E) := eff_same (Nat.le_succ _) rfl (passive_refl _) rfl (noConts_alloc hE s) rfl rfl
theorem eff_timer {E : SEv} (hE : ∀ d, E.value ≠ some (.ok (.cont d))) (s : Sim) (u : Bool) (q : ℚ) : Eff C S s ((s.alloc E).schedule s.next u q) :=
  eff_same (Nat.le_succ _) rfl (passive_refl _) rfl (noConts_alloc hE s) rfl rfl
theorem effy_newEvent : Effy C S newEvent := fun s => eff_alloc (fun _ h => by cases h) s
theorem eff_trigger {v : Except PyErr SVal} (hv : ∀ d, v ≠ .ok (.cont d)) (s : Sim) (ev : ℕ) : Eff C S s (s.trigger ev v) := eff_same le_rfl rfl (passive_refl _) rfl (noConts_trigger hv s) rfl rfl
theorem noConts_addCallback (s : Sim) (ev : ℕ) (cb : Callback) : NoConts s (s.addCallback ev cb) := fun x d hx => by rw [value_addCallback] at hx; exact hx
theorem eff_addCallback (s : Sim) (ev : ℕ) (cb : Callback) : Eff C S s (s.addCallback ev cb) := eff_same le_rfl rfl (passive_refl _) rfl (noConts_addCallback s ev cb) rfl rfl

theorem effy_succeed {ev : ℕ} : Effy C S (succeed ev) := fun s => by
  unfold succeed
  split
  · exact eff_refl s
  · exact eff_trigger (fun _ h => by cases h) s ev

theorem effy_timeout {d : ℚ} : Effy C S (timeout d) := fun s => by
  unfold timeout
  split
  · exact eff_refl s
  · exact eff_timer (fun _ h => by cases h) s _ _

theorem eff_process {pt : Pt} (h : Base S s → Mine C S s.trace s.next pt) : Eff C S s (process pt s).1 := by
  have h1 := eff_alloc (C := C) (S := S) (E := ⟨Option.none, false, some []⟩) (fun _ h => by cases h) s
  have h2 := eff_timer (C := C) (S := S) (E := ⟨some (.ok .nothing), false, some [.resume s.next]⟩) (fun _ h => by cases h) (s.alloc ⟨Option.none, false, some []⟩) true 0
  have h3 := eff_trans h1 h2
  refine ⟨h3.next, h3.trace, h3.own, fun q hq => fset_other _ _ (Nat.ne_of_lt hq), fun hb => ⟨?_, fun q pt' hp => ?_⟩⟩
  · obtain ⟨a1, a2, a3, a4⟩ := (h3.base hb).1
    exact ⟨a1, a2, a3, a4⟩
  have hp : fset s.points s.next (some pt) q = some pt' := hp
  by_cases he : q = s.next
  · subst he; rw [fset_same] at hp; cases hp; exact .inr ⟨le_rfl, h hb⟩
  · rw [fset_other _ _ he] at hp; exact .inl hp

theorem effy_process {pt : Pt} (h : ∀ tr p, Mine C S tr p pt) : Effy C S (process pt) := fun _ => eff_process fun _ => h _ _

theorem effy_interrupt {r : ℕ} : Effy C S (interruptProcess r) := fun s => by
  unfold interruptProcess
  split
  · exact eff_refl s
  · exact eff_timer (fun _ h => by cases h) s _ _

theorem effy_anyOf {a b : ℕ} : Effy C S (anyOf a b) := fun s => by
  have key : ∀ (c ev : ℕ) (s : Sim), Eff C S s (if s.processed ev then (if s.triggered c then s else s.trigger c (.ok .nothing)) else s.addCallback ev (.check c)) := fun c ev s => by
    split
    · split
      · exact eff_refl s
      · exact eff_trigger (fun _ h => by cases h) s _
    · exact eff_addCallback s _ _
  have h0 : Eff C S s (s.alloc ⟨Option.none, false, some [.build s.next a b]⟩) := eff_alloc (fun _ h => by cases h) s
  exact eff_trans (eff_trans h0 (key s.next a _)) (key s.next b _)

theorem effy_activateOf {name : String} : Effy C S (activateOf name) := fun s => by
  unfold activateOf
  cases alook name s.activate <;> exact eff_refl s

theorem effy_interruptExtra {name : String} : Effy C S (interruptExtra name) := fun s => by
  unfold interruptExtra
  cases alook name s.extra with
  | none => exact eff_refl s
  | some p => exact effy_interrupt s

theorem effy_ite {b : Prop} [Decidable b] {m m' : SimM A} (h : Effy C S m) (h' : Effy C S m') : Effy C S (if b then m else m') := by split <;> assumption

macro "effset" : tactic => `(tactic| (refine effy_set fun _ => ?_; exact ⟨rfl, rfl, rfl, rfl, rfl, rfl, rfl, rfl, rfl⟩))

macro "effy" : tactic => `(tactic| repeat' with_reducible first
  | assumption
  | exact effy_pure | exact effy_throw | exact effy_get | exact effy_newEvent | exact effy_succeed | exact effy_activateOf | exact effy_interruptExtra
  | exact effy_interrupt | exact effy_anyOf | exact effy_timeout
  | effset
  | refine effy_ite ?_ ?_
  | refine effy_bind ?_ fun _ => ?_)

/-- The list of processes that were started is set. -/
theorem eff_setStarted {l : List PItem} (h : Base S s → ∀ n i d, .gen n i d ∈ l → Due S s.trace n d) : Eff C S s (s.setStarted l) := by
  unfold Sim.setStarted
  cases hs : s.started with
  | none => exact ⟨le_rfl, List.prefix_rfl, own_same rfl rfl, fun _ _ => rfl, fun hb => ⟨⟨h hb, (fun l' hl => by cases hl), hb.conts, hb.told⟩, fun _ _ hp => .inl hp⟩⟩
  | some l' => exact ⟨le_rfl, List.prefix_rfl, own_refl _, fun _ _ => rfl, fun hb => ⟨⟨hb.procs, fun l1 hl => by cases hl; exact h hb, hb.conts, hb.told⟩, fun _ _ hp => .inl hp⟩⟩

theorem base_list (h : Base S s) : ∀ n i d, .gen n i d ∈ s.startedList → Due S s.trace n d := by
  unfold Sim.startedList
  cases hs : s.started with
  | none => exact h.procs
  | some l => exact h.own l hs

theorem effy_activateProc {e : Ev} : Effy C S (activateProc e) := by
  rcases activateProc_cases e with hp | hp <;> rw [hp]
  · exact effy_pure
  · intro s
    dsimp only
    split
    · exact eff_refl s
    · exact effy_succeed s

theorem eff_print {e : Ev} (h : Base S s → ∀ r, e.act.told = some r → ToldBy S s.trace e.proc r) : Eff C S s (printEvent e s).1 := by
  rcases printEvent_cases e with ⟨_, hu⟩ | ⟨_, hu⟩ <;> rw [hu]
  · exact eff_refl s
  · have hp : s.trace <+: s.trace ++ [(s.now, e)] := List.prefix_append _ _
    refine ⟨le_rfl, hp, own_refl _, fun _ _ => rfl, fun hb => ⟨⟨fun n i d hm => due_mono (wider_refl S) hp (hb.procs n i d hm), fun l hl n i d hm => due_mono (wider_refl S) hp (hb.own l hl n i d hm), fun ev d hv => rooted_mono (wider_refl S) hp (hb.conts ev d hv), ?_⟩, fun _ _ hp => .inl hp⟩⟩
    intro l1 q e' l2 he r hr
    have he : s.trace ++ [(s.now, e)] = l1 ++ (q, e') :: l2 := he
    rcases List.eq_nil_or_concat l2 with rfl | ⟨l3, x, rfl⟩
    · obtain ⟨h1, h2⟩ := List.append_inj' he rfl
      cases h2
      exact h1 ▸ h hb r hr
    · have h1 : s.trace ++ [(s.now, e)] = (l1 ++ (q, e') :: l3) ++ [x] := by rw [he]; simp
      obtain ⟨h1, h2⟩ := List.append_inj' h1 rfl
      exact hb.told l1 q e' l3 h1 r hr

theorem effy_envInteraction : Effy C S envInteraction := fun s => by
  unfold envInteraction
  have h0 : Effy C S (SimM.set (fun s => { s with w := { s.w with interaction := [] } })) := by effset
  cases s.w.env with
  | none => exact eff_refl s
  | some env =>
    dsimp only
    split
    · exact effy_bind (effy_succeed (ev := s.envActivate)) (fun _ => h0) s
    · exact h0 s

theorem eff_w {w : Mach} (h : Passive s.w w) : Eff C S s { s with w := w } := eff_same le_rfl rfl h rfl (noConts_refl s) rfl rfl

/-! ## Results -/

/-- What a process waits for, or what it gives. -/
def ResOk (C : Cfg) (S : Sources) (tr : List (ℚ × Ev)) (p : ℕ) : Res → Prop
  | .wait _ pt => Mine C S tr p pt
  | .done v => ∀ d, v = .cont d → Rooted S tr d

/-- Code of a process. -/
def EffR (C : Cfg) (S : Sources) (p : ℕ) (s : Sim) (m : SimM Res) : Prop :=
  Base S s → Eff C S s (m s).1 ∧ ∀ r, (m s).2 = .ok r → ResOk C S (m s).1.trace p r

theorem effR_bind' {m : SimM A} {f : A → SimM Res} (hm : Eff C S s (m s).1) (hf : Base S s → ∀ a, (m s).2 = .ok a → EffR C S p (m s).1 (f a)) : EffR C S p s (m >>= f) := fun hb => by
  show Eff C S s (SimM.bind m f s).1 ∧ (∀ r, (SimM.bind m f s).2 = .ok r → ResOk C S (SimM.bind m f s).1.trace p r)
  unfold SimM.bind
  rcases h : m s with ⟨s1, e | a⟩
  · rw [h] at hm
    exact ⟨hm, fun r hr => by cases hr⟩
  · rw [h] at hm hf
    obtain ⟨h1, h2⟩ := hf hb a rfl (hm.base hb).1
    exact ⟨eff_trans hm h1, h2⟩

theorem effR_bind {m : SimM A} {f : A → SimM Res} (hm : Effy C S m) (hf : ∀ a s, EffR C S p s (f a)) : EffR C S p s (m >>= f) := effR_bind' (hm s) fun _ a _ => hf a _
theorem effR_pure {r : Res} (h : ∀ tr, ResOk C S tr p r) : EffR C S p s (pure r) := fun _ => ⟨eff_refl s, fun r' hr => by cases hr; exact h _⟩
theorem effR_throw {e : PyErr} : EffR C S p s (SimM.throw e) := fun _ => ⟨eff_refl s, fun r' hr => by cases hr⟩
theorem effR_ite {b : Prop} [Decidable b] {m m' : SimM Res} (h : EffR C S p s m) (h' : EffR C S p s m') : EffR C S p s (if b then m else m') := by split <;> assumption

theorem resOk_nothing : ResOk C S tr p (.done .nothing) := fun d h => by cases h
theorem resOk_procs : ResOk C S tr p (.done .procs) := fun d h => by cases h
theorem resOk_idle {ev : ℕ} {n : String} : ResOk C S tr p (.wait ev (.extraIdle n)) := trivial
theorem resOk_main {ev pro : ℕ} {n : String} : ResOk C S tr p (.wait ev (.extraMain n pro)) := trivial
theorem resOk_cont {ev : ℕ} {n : String} : ResOk C S tr p (.wait ev (.extraCont n)) := trivial

macro "effr" : tactic => `(tactic| repeat' with_reducible first
  | assumption
  | exact effR_throw | exact effR_pure (fun _ => resOk_nothing) | exact effR_pure (fun _ => resOk_idle) | exact effR_pure (fun _ => resOk_main) | exact effR_pure (fun _ => resOk_cont)
  | refine effR_ite ?_ ?_
  | refine effR_bind (by effy; done) fun _ _ => ?_)

theorem mem_takeFor {n : String} {l rest : List PItem} {i : ℕ} {d : Desc} (h : takeFor n l = .ok (some ((i, d), rest))) : (∃ j, .gen n j d ∈ l) ∧ ∀ x ∈ rest, x ∈ l := by
  obtain ⟨j, l1, l2, h1, h2, _⟩ := takeFor_first h
  refine ⟨⟨j, by rw [h1]; exact List.mem_append_right _ (.head _)⟩, fun x hx => ?_⟩
  rw [h1]; rw [h2] at hx
  rcases List.mem_append.1 hx with hx | hx
  · exact List.mem_append_left _ hx
  · exact List.mem_append_right _ (.tail _ hx)

/-! ## Modules -/

theorem effy_renew {name : String} : Effy C S (renewActivate name) := by unfold renewActivate; effy

/-- A process for something that is due. -/
theorem effR_start {name : String} {d : Desc} {f : ℕ → SimM Res} (h : Due S s.trace name d) (hf : ∀ a s, EffR C S p s (f a)) : EffR C S p s (process (.localNew name (d.run C)) >>= f) :=
  effR_bind' (eff_process fun _ => ⟨d, rfl, h⟩) fun _ a _ => hf a _

theorem effR_extraLoop {name : String} : EffR C S p s (extraLoop C name) := by
  unfold extraLoop
  refine effR_bind' (eff_refl s) fun hb l hl => ?_
  have hl : s.startedList = l := Except.ok.inj hl
  show EffR C S p s _
  have hr := effy_renew (C := C) (S := S) (name := name)
  split
  · exact effR_throw
  · effr
  · rename_i i d rest ht
    rw [← hl] at ht
    obtain ⟨⟨j, hj⟩, hrest⟩ := mem_takeFor ht
    have hd := base_list hb name j d hj
    have h1 : Eff C S s (s.setStarted rest) := eff_setStarted fun hb n i d hm => base_list hb n i d (hrest _ hm)
    have hstart : ∀ s1 : Sim, s.trace <+: s1.trace → EffR C S p s1 (do
        let pro ← process (.localNew name (d.run C))
        pure (.wait pro (.extraMain name pro)) : SimM Res) := fun s1 h => effR_start (due_mono (wider_refl S) h hd) fun a s2 => by effr
    refine effR_bind' h1 fun _ _ _ => effR_bind' (effy_activateOf _) fun _ a _ => effR_bind' (eff_refl _) fun _ busy _ => ?_
    have h2 := eff_trans h1 (effy_activateOf (C := C) (S := S) (name := name) _)
    cases busy with
    | true => exact hstart _ h2.trace
    | false => exact effR_bind' (effy_succeed _) fun _ _ _ => hstart _ (eff_trans h2 (effy_succeed (C := C) (S := S) (ev := a) _)).trace

theorem effR_extraAfterMain {name : String} {pro : ℕ} {x : Except PyErr SVal} (hx : ∀ d, x = .ok (.cont d) → Rooted S s.trace d) : EffR C S p s (extraAfterMain C name pro x) := by
  unfold extraAfterMain
  split
  · refine effR_bind effy_get fun over s1 => ?_
    split
    · exact effR_extraLoop
    · exact effR_bind effy_interrupt fun _ _ => effR_extraLoop
  · exact effR_throw
  · rename_i d
    exact effR_start (due_rooted (hx d rfl)) fun a s1 => by effr
  · exact effR_extraLoop

theorem effR_extraAfterCont {name : String} {x : Except PyErr SVal} : EffR C S p s (extraAfterCont C name x) := by
  unfold extraAfterCont
  split
  · exact effR_extraLoop
  · exact effR_throw
  · exact effR_extraLoop

/-! ## The environment -/

theorem effR_envIter {e : EnvEvent} {k : Mach → Out Mach EnvEvent Unit} (hk : ∀ w, (k w).Moves Passive w) : EffR C S p s (envIter e k) := by
  unfold envIter
  refine effR_bind (effy_process fun _ _ => ?_) fun pro _ => effR_bind effy_get fun a _ => effR_bind effy_anyOf fun c _ => effR_pure fun _ => hk
  show e.ev.act.told = Option.none
  unfold EnvEvent.ev
  dsimp only
  split <;> rfl

theorem effR_w {m : SimM Res} {w : Mach} (hw : Passive s.w w) (hm : EffR C S p { s with w := w } m) (hb : Base S s) : Eff C S s (m { s with w := w }).1 ∧ ∀ r, (m { s with w := w }).2 = .ok r → ResOk C S (m { s with w := w }).1.trace p r := by
  have h1 : Eff C S s { s with w := w } := eff_w hw
  obtain ⟨a, b⟩ := hm (h1.base hb).1
  exact ⟨eff_trans h1 a, b⟩

theorem effR_envStart : EffR C S p s (envStart C) := fun hb => by
  cases ha : s.envArgs with
  | none =>
    have : envStart C s = (s, .error .type) := by simp only [envStart, ha]
    rw [this]; exact ⟨eff_refl s, fun r hr => by cases hr⟩
  | some a =>
    have hk := passive_env C.upper a.stimuli a.triggers a.times a.startTime s.w
    rcases ho : envProcess (fun env (w : Mach) => { w with env := some env }) envOf C.upper a.stimuli a.triggers a.times a.startTime s.w with ⟨w, e, k⟩ | ⟨w, r⟩ | ⟨w, x⟩
    · rw [ho] at hk
      have : envStart C s = envIter e k { s with w := w } := by simp only [envStart, ha, ho]
      rw [this]; exact effR_w hk.1 (effR_envIter hk.2) hb
    · rw [ho] at hk
      have : envStart C s = (SimM.throw .runtime : SimM Res) { s with w := w } := by simp only [envStart, ha, ho]; rfl
      rw [this]; exact effR_w hk effR_throw hb
    · rw [ho] at hk
      have : envStart C s = (SimM.throw x : SimM Res) { s with w := w } := by simp only [envStart, ha, ho]; rfl
      rw [this]; exact effR_w hk effR_throw hb

theorem effy_startAutomatic {name : String} {i : ℕ} {d : Desc} (hd : ¬ ByRule d ∧ d.kept = Option.none) : Effy C S (startAutomatic name i d) := by
  unfold startAutomatic
  refine effy_bind (fun s => eff_setStarted fun hb n i d' hm => ?_) fun _ => ?_
  · rcases List.mem_append.1 hm with hm | hm
    · exact base_list hb n i d' hm
    · rw [List.mem_singleton] at hm
      cases hm
      exact due_rooted (rooted_plain hd)
  refine effy_bind effy_activateOf fun a => effy_bind effy_get fun busy => effy_ite (effy_bind effy_get fun old => ?_) (by effy)
  split <;> effy

theorem effy_automatic {name : String} : Effy C S (automatic name) := fun s => by
  unfold automatic
  split
  · exact eff_refl s
  · split
    · exact eff_refl s
    · rename_i b _ d hd
      have hn : ¬ ByRule d ∧ d.kept = Option.none := by
        unfold automaticFor at hd
        split at hd
        · cases hd; exact ⟨id, rfl⟩
        · split at hd
          · cases hd; exact ⟨id, rfl⟩
          · cases hd
        · cases hd
      exact eff_trans (eff_w (w := { s.w with nextId := s.w.nextId + 1 }) ⟨own_same rfl rfl, rfl⟩) (effy_startAutomatic hn _)

theorem effy_automaticAll : ∀ l : List String, Effy C S (automaticAll l)
  | [] => effy_pure
  | _ :: r => effy_bind effy_automatic fun _ => effy_automaticAll r

theorem effy_envNext {pro : ℕ} : Effy C S (envNext pro) := by unfold envNext; effy

theorem effR_envAdvance {k : Mach → Out Mach EnvEvent Unit} (h : ∀ w, (k w).Moves Passive w) : EffR C S p s (envAdvance k) := fun hb => by
  have hk := h s.w
  unfold envAdvance
  split
  · rename_i w _ ho; rw [ho] at hk; exact effR_w (m := pure (.done .nothing)) hk (effR_pure fun _ => resOk_nothing) hb
  · rename_i w x ho; rw [ho] at hk; exact effR_w (m := SimM.throw x) hk effR_throw hb
  · rename_i w e k' ho
    rw [ho] at hk
    exact effR_w hk.1 (effR_bind (effy_automaticAll _) fun _ _ => effR_envIter hk.2) hb

theorem effR_envProcStart {e : Ev} (he : e.act.told = Option.none) : EffR C S p s (envProcStart e) := fun hb => by
  unfold envProcStart
  have h1 := effy_timeout (C := C) (S := S) (d := e.time - s.now) s
  split
  · rename_i s1 t h
    rw [h] at h1
    exact ⟨h1, fun r hr => by cases hr; exact he⟩
  · rename_i s1 x h
    rw [h] at h1
    obtain ⟨a, b⟩ := effR_bind (p := p) (effy_activateProc (e := e)) (fun _ _ => effR_throw (e := x)) (h1.base hb).1
    exact ⟨eff_trans h1 a, b⟩

theorem effR_envProcResume {e : Ev} (he : e.act.told = Option.none) {x : Except PyErr SVal} : EffR C S p s (envProcResume e x) := by
  unfold envProcResume
  split
  · exact effR_bind effy_activateProc fun _ _ => effR_pure fun _ => resOk_nothing
  · exact effR_bind effy_activateProc fun _ _ => effR_throw
  · exact effR_bind' (eff_print fun _ r hr => by rw [he] at hr; cases hr) fun _ _ _ => effR_bind effy_activateProc fun _ _ => effR_pure fun _ => resOk_nothing

/-! ## Processes of modules -/

/-- What may be assumed of the state in which a process runs. -/
structure Witness (C : Cfg) (S : Sources) (tr : List (ℚ × Ev)) (w : Mach) : Prop where
  G : ∀ f, CanFire C w f → S.G f
  K : ∀ f n v c, S.G f → HasFired tr f → Obtains C w n v f.bv c → S.K f n v c

theorem effR_localRun {name : String} {d : Desc} {ph : Option (Option Haul)} {o : Out Mach YV Unit} {w0 : Mach} (hw : Witness C S tr w0) (hws : s.w = w0) (htr0 : tr <+: s.trace) (hd0 : Due S tr name d)
    (hp : ∀ r, ph = some r → ∀ n v bv t, d = .retrieveorset n v bv t → ToldBy S s.trace n r) (ho : Serves C d ph w0 o) : EffR C S p s (localRun name o) := by
  subst hws
  have hd := due_mono (wider_refl S) htr0 hd0
  cases o with
  | yield w y k =>
    obtain ⟨h1, ph', h2, h3, h4⟩ := ho
    have hset : Eff C S s { s with w := w } := eff_w h1
    have hp' : ∀ r, ph' = some r → ∀ n v bv t, d = .retrieveorset n v bv t → ToldBy S s.trace n r := by
      rcases h2 with rfl | ⟨r, rfl, hf⟩
      · exact hp
      · intro r' hr n v bv t hdd
        cases hr
        subst hdd
        obtain ⟨f, g1, g2, g3⟩ := hd0.1 trivial
        have hq := g2
        obtain ⟨rhs, v', _, ⟨_, h6⟩ | ⟨_, h6⟩⟩ := g2
        · cases h6
          exact ⟨f, v, g1, hq, hasFired_mono htr0 g3, fun c hc => hw.K f name v c g1 g3 (hf c hc)⟩
        · cases h6
    cases y with
    | ev e =>
      refine effR_bind' hset fun _ _ _ => effR_bind' (eff_refl _) fun _ now _ => effR_bind' (effy_timeout _) fun _ t _ => fun _ => ⟨eff_refl _, fun r hr => ?_⟩
      cases hr
      have htr : s.trace <+: (timeout (e.time - round4 now) { s with w := w }).1.trace := (effy_timeout (C := C) (S := S) (d := e.time - round4 now) { s with w := w }).trace
      refine mine_mono (p := p) (wider_refl S) htr (pt := .localWait name e k) ⟨fun r hr => ?_, d, ph', hd, hp', h4⟩
      rcases h3 r hr with ⟨g1, v, bv, t, g2⟩ | ⟨c, rfl, g2⟩
      · exact hp' r g1 _ v bv t g2
      · exact hd.2 _ c g2
    | cont d' =>
      refine effR_bind' hset fun _ _ _ => fun _ => ⟨eff_refl _, fun r hr => ?_⟩
      cases hr
      intro d'' hd''
      cases hd''
      refine ⟨h3.1, fun n c hc => ?_⟩
      obtain ⟨g1, v, bv, t, g2⟩ := h3.2 n c hc
      exact hp' _ g1 n v bv t g2
    | procs => exact effR_bind' hset fun _ _ _ => effR_pure fun _ => resOk_procs
    | nothing => exact effR_bind' hset fun _ _ _ => effR_pure fun _ => resOk_nothing
  | ret w r => exact effR_bind' (eff_w ho) fun _ _ _ => effR_pure fun _ => resOk_nothing
  | raise w x => exact effR_bind' (eff_w ho) fun _ _ _ => effR_throw

/-- The key that was pressed is forgotten. -/
def Unpressed (w w' : Mach) : Prop := w' = w ∨ w' = { w with interaction := [] }

theorem w_print (e : Ev) (s : Sim) : (printEvent e s).1.w = s.w := by
  rcases printEvent_cases e with ⟨_, hu⟩ | ⟨_, hu⟩ <;> rw [hu] <;> rfl
theorem w_succeed (ev : ℕ) (s : Sim) : (succeed ev s).1.w = s.w := by unfold succeed; split <;> rfl
theorem w_activateProc (e : Ev) (s : Sim) : (activateProc e s).1.w = s.w := by
  rcases activateProc_cases e with hu | hu <;> rw [hu]
  · rfl
  · dsimp only
    split
    · rfl
    · exact w_succeed _ s
theorem unpressed_envInteraction (s : Sim) : Unpressed s.w (envInteraction s).1.w := by
  unfold envInteraction
  cases s.w.env with
  | none => exact .inl rfl
  | some env =>
    dsimp only
    split
    · unfold SimM.bind
      have h := w_succeed s.envActivate s
      rcases hs : succeed s.envActivate s with ⟨s1, x | u⟩
      · rw [hs] at h; exact .inl h
      · rw [hs] at h
        refine .inr ?_
        show ({ s1.w with interaction := [] } : Mach) = _
        rw [show s1.w = s.w from h]
    · exact .inr rfl

theorem witness_same {w w' : Mach} (h : Unpressed w w') (hw : Witness C S tr w) : Witness C S tr w' := by
  rcases h with rfl | rfl
  · exact hw
  · exact ⟨hw.G, hw.K⟩

/-- A process of a module. -/
theorem effR_local {name : String} {pt : Pt} {x : Except PyErr SVal} (hpt : (∃ g, pt = .localNew name g) ∨ ∃ e k, pt = .localWait name e k) (hm : Mine C S s.trace p pt) (hw : Witness C S s.trace s.w) : EffR C S p s (code C pt x) := by
  rcases hpt with ⟨g, rfl⟩ | ⟨e, k, rfl⟩
  · obtain ⟨d, rfl, hd⟩ := hm
    rcases x with x | v <;> [exact effR_throw; skip]
    refine effR_bind' (eff_refl s) fun _ w hwe => ?_
    have hwe : s.w = w := Except.ok.inj hwe
    subst hwe
    exact effR_localRun hw rfl List.prefix_rfl hd (fun r hr => by cases hr) (serves_run C d s.w)
  · obtain ⟨h1, d, ph, h2, h3, h4⟩ := hm
    show EffR C S p s (localResume name e k x)
    unfold localResume
    split
    · exact effR_pure fun _ => resOk_nothing
    · exact effR_throw
    · have e1 : Eff C S s (printEvent e s).1 := eff_print fun _ => h1
      have e2 := eff_trans e1 (effy_activateProc (C := C) (S := S) (e := e) _)
      have e3 := eff_trans e2 (effy_envInteraction (C := C) (S := S) _)
      refine effR_bind' e1 fun _ _ _ => effR_bind' (effy_activateProc _) fun _ _ _ => effR_bind' (effy_envInteraction _) fun _ _ _ => effR_bind' (eff_refl _) fun _ w hwe => ?_
      have hwe := Except.ok.inj hwe
      subst hwe
      refine effR_localRun (witness_same (unpressed_envInteraction _) ?_) rfl e3.trace h2 (fun r hr n v bv t hdd => told_mono (wider_refl S) e3.trace (h3 r hr n v bv t hdd)) (h4 _)
      rw [w_activateProc, w_print]; exact hw

/-! ## The process of all cycles -/

theorem effy_notify (x : PItem) : Effy C S (notify x) := by
  cases x with
  | procedural => exact effy_throw
  | gen n i d =>
    unfold notify
    refine effy_bind effy_activateOf fun a => effy_bind effy_get fun busy => effy_ite (effy_bind effy_get fun old => ?_) (by effy)
    split <;> effy

theorem effy_notifyAll : ∀ l : List PItem, Effy C S (notifyAll l)
  | [] => effy_pure
  | x :: r => effy_bind (effy_notify x) fun _ => effy_notifyAll r

theorem effR_procSpins {n : ℕ} : EffR C S 2 s (procSpins n) := effR_bind effy_timeout fun _ _ => effR_pure fun _ => rfl

theorem mem_removeProcedural : ∀ {l : List PItem} {x : PItem}, x ∈ removeProcedural l → x ∈ l
  | [], _, h => h
  | .procedural :: r, x, h => .tail _ h
  | .gen m i d :: r, x, h => by
    rcases List.mem_cons.1 h with h | h
    · exact h ▸ .head _
    · exact .tail _ (mem_removeProcedural h)

theorem effR_procLoop : EffR C S 2 s procLoop := by
  unfold procLoop
  refine effR_bind' (eff_refl s) fun hb l hl => ?_
  have hl : s.startedList = l := Except.ok.inj hl
  subst hl
  split
  · exact effR_bind' (eff_setStarted fun hb n i d hm => base_list hb n i d (mem_removeProcedural hm)) fun _ _ _ => effR_bind effy_get fun l _ => effR_bind (effy_notifyAll l) fun _ _ => effR_procSpins
  · exact effR_bind effy_get fun a _ => effR_bind effy_get fun gone _ => effR_ite effR_procSpins (effR_pure fun _ => rfl)

theorem effy_procsReturned {v : SVal} : Effy C S (procsReturned v) := fun s => by
  unfold procsReturned
  split
  · exact ⟨le_rfl, List.prefix_rfl, own_refl _, fun _ _ => rfl, fun hb => ⟨⟨hb.procs, (fun l hl => by cases hl), hb.conts, hb.told⟩, fun _ _ hp => .inl hp⟩⟩
  · exact eff_refl s

/-- All processes but the one that goes through the cycle of the rules, when they do not start that one. -/
theorem effR_code {pt : Pt} {x : Except PyErr SVal} (hm : Mine C S s.trace p pt) (hw : Witness C S s.trace s.w) (hx : ∀ d, x = .ok (.cont d) → Rooted S s.trace d)
    (hn : ∀ v, x = .ok v → pt ≠ .procNew ∧ pt ≠ .procSpin 0) : EffR C S p s (code C pt x) := by
  cases pt with
  | procNew => rcases x with x | v <;> [exact effR_throw; exact absurd rfl (hn v rfl).1]
  | procFirst => cases hm; rcases x with x | v <;> [exact effR_throw; exact effR_bind effy_procsReturned fun _ _ => effR_procLoop]
  | procIdle => cases hm; rcases x with x | v <;> [exact effR_throw; exact effR_procSpins]
  | procSpin n => cases hm; rcases x with x | v <;> [exact effR_throw; (rcases n with _ | n <;> [exact absurd rfl (hn v rfl).2; exact effR_procSpins])]
  | procAgain =>
    cases hm
    rcases x with x | v <;> [exact effR_throw; skip]
    have h0 : Effy C S (SimM.set (fun s => s)) := by effset
    exact effR_bind effy_procsReturned fun _ _ => effR_bind effy_newEvent fun _ _ => effR_bind (by effy) fun _ _ => effR_procLoop
  | extraNew name => rcases x with x | v <;> [exact effR_throw; exact effR_extraLoop]
  | extraIdle name => rcases x with x | v <;> [exact effR_throw; exact effR_bind effy_renew fun _ _ => effR_extraLoop]
  | extraMain name pro => exact effR_extraAfterMain hx
  | extraCont name => exact effR_extraAfterCont
  | localNew name g => exact effR_local (.inl ⟨g, rfl⟩) hm hw
  | localWait name e k => exact effR_local (.inr ⟨e, k, rfl⟩) hm hw
  | envNew => rcases x with x | v <;> [exact effR_throw; exact effR_envStart]
  | envWait pro k => rcases x with x | v <;> [exact effR_throw; exact effR_bind effy_envNext fun _ _ => effR_envAdvance hm]
  | envProcNew e => rcases x with x | v <;> [exact effR_throw; exact effR_envProcStart hm]
  | envProc e => exact effR_envProcResume hm

end Verif
