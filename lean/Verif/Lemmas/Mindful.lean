import Verif.Lemmas.Hark
/-! # Modules are called for the requests that wait for them: all states -/
namespace Verif
open Verif.Spec

variable {rf : ℚ} {s s' : Sim} {p c : ℕ}

/-! ## The invariant -/

/-- A generator of a cycle that will have put PROCEDURAL into the list by `T`. -/
abbrev Ends (T : ℚ) (o : Out Mach YV Unit) : Prop := Ending T (fun _ _ => True) o

/-- A generator of a cycle. -/
abbrev Settles (T : ℚ) (w : Mach) (o : Out Mach YV Unit) : Prop := Sedate (fun _ _ _ => True) (fun _ _ _ _ => True) T w o

/-- The process `c` of a cycle ends at this time, and leaves PROCEDURAL in the list. -/
def Lately (s : Sim) (c : ℕ) : Prop :=
  (s.points c = Option.none ∧ ((s.events c).value = some (.ok .procs) → Bears s.w)) ∨
  ∃ name e k T, s.points c = some (.localWait name e k) ∧ e.time ≤ s.now ∧ T ≤ s.now ∧ Bears s.w ∧ ∀ w', Bears w' → Ends T (k w')

/-- What is known when process number 2 waits at `pt`. -/
structure Minds (s : Sim) (pt : Pt) : Prop where
  kinds : ∀ p pt' n, s.points p = some pt' → pt'.module = some n → alook n s.extra = some p
  idle : ∀ e n, s.points e = some (.extraIdle n) → 0 < orders n s.startedList → Called s n ∨ (s.started = Option.none ∧ Cyc pt ∧ Lately s (s.target 2))
  fresh : s.started.isSome → ∀ n, 0 < orders n s.w.procs → Cyc pt ∧ Lately s (s.target 2)
  new : Cyc pt → ∀ name g, s.points (s.target 2) = some (.localNew name g) → ∀ T w, Settles T w (g w)
  wait : Cyc pt → ∀ name e k, s.points (s.target 2) = some (.localWait name e k) →
    Lately s (s.target 2) ∨ ∃ T, (T ≤ s.now ∨ T ≤ e.time) ∧ ∀ w', Keep s.w w' → Settles T w' (k w')

/-- The invariant. -/
def Mindful (s : Sim) : Prop := ∀ pt, s.points 2 = some pt → Minds s pt

theorem known_tame {K : Prop} (ht : Tame K s) : Known s := fun _ _ ha => (ht.act _ _ (alook_mem ha)).1.1

theorem mindful_dead (h : s.points 2 = Option.none) : Mindful s := fun pt hp => by rw [h] at hp; cases hp

/-! ## Changes from outside -/

theorem lately_outer (h : Lately s c) (hs : Outer p s s') (hp : p ≠ c) (hc : c < s.next) : Lately s' c := by
  have hpts := hs.others.points c hc hp.symm
  rcases h with ⟨h1, h2⟩ | ⟨name, e, k, T, h1, h2, h3, h4, h5⟩
  · exact .inl ⟨by rw [hpts]; exact h1, fun hv => hs.keep (h2 (hs.procs c hp.symm hv))⟩
  · exact .inr ⟨name, e, k, T, by rw [hpts]; exact h1, by rw [hs.others.now]; exact h2, by rw [hs.others.now]; exact h3, hs.keep h4, h5⟩

theorem none_of_own {o : Option String} {q : Option String} (h : Hark o q s s') (hn : s.started = Option.none) : s'.started = Option.none := by
  have := h.own
  rw [hn] at this
  simpa using this

theorem mindful_outer {P : ℕ → Option Pt} {o : Option String} (h : Mindful s) (ht : Tame False s) (hs : Outer p s s') (h2 : p ≠ 2) (hc : ∀ pt, s.points 2 = some pt → Cyc pt → p ≠ s.target 2)
    (hk : Hark o Option.none s { s' with points := P }) (hP : ∀ r, r ≠ p → s'.points r = P r) (hp : ∀ n, o = some n → alook n s.extra = some p)
    (hown : ∀ pt, s'.points p = some pt → pt.module = o ∧ ∀ n, pt = .extraIdle n → orders n s'.startedList = 0) : Mindful s' := by
  intro pt hpt
  rw [hs.others.points 2 ht.two h2.symm] at hpt
  have hw := h pt hpt
  have htg := hs.others.target 2 ht.two h2.symm
  have hlt := (ht.alive pt hpt).2.2.1.1
  have hkn := known_tame ht
  have hex : s'.extra = s.extra := hk.extra
  have hlate : Cyc pt → Lately s (s.target 2) → Lately s' (s.target 2) := fun hcy hl => lately_outer hl hs (hc pt hpt hcy) hlt
  have hpc : Cyc pt → s'.points (s.target 2) = s.points (s.target 2) := fun hcy => hs.others.points _ hlt (hc pt hpt hcy).symm
  refine ⟨fun r pt' n hr hm => ?_, fun e n he hpos => ?_, fun hst n hpos => ?_, fun hcy name g hn => ?_, fun hcy name e k hn => ?_⟩
  · rw [hex]
    by_cases hrp : r = p
    · subst hrp
      exact hp n ((hown pt' hr).1.symm.trans hm)
    · rw [hP r hrp] at hr
      rcases hk.pts r pt' hr with h1 | ⟨_, h1⟩
      · exact hw.kinds r pt' n h1 hm
      · rw [h1] at hm; cases hm
  · by_cases hep : e = p
    · subst hep
      rw [(hown _ he).2 n rfl] at hpos
      exact absurd hpos (lt_irrefl _)
    · rw [hP e hep] at he
      rcases hk.pts e _ he with h1 | ⟨_, h1⟩
      · have hon : o ≠ some n := fun ho => by
          have h3 := hp n ho
          have h4 := hw.kinds e _ n h1 rfl
          rw [h3] at h4
          exact hep (Option.some.inj h4).symm
        have hcalled : Called s n → Called s' n := called_hark (s' := { s' with points := P }) hkn hk hon
        rcases hk.ords n hon (by simp) with h3 | h3
        · rcases hw.idle e n h1 (hpos.trans_le h3) with h4 | ⟨h4, h5, h6⟩
          · exact .inl (hcalled h4)
          · exact .inr ⟨none_of_own (s' := { s' with points := P }) hk h4, h5, by rw [htg]; exact hlate h5 h6⟩
        · exact .inl h3
      · cases h1
  · have hst' : s.started.isSome := by rw [← hk.own]; exact hst
    have : s'.w.procs = s.w.procs := hk.procs hst'
    rw [this] at hpos
    obtain ⟨h5, h6⟩ := hw.fresh hst' n hpos
    exact ⟨h5, by rw [htg]; exact hlate h5 h6⟩
  · rw [htg, hpc hcy] at hn
    exact hw.new hcy name g hn
  · rw [htg, hpc hcy] at hn
    rw [htg, hs.others.now]
    rcases hw.wait hcy name e k hn with h1 | ⟨T, h1, h3⟩
    · exact .inl (hlate hcy h1)
    · exact .inr ⟨T, h1, fun w' hw' => h3 w' fun hb => hw' (hs.keep hb)⟩

theorem mindful_code {C : Cfg} {x : Except PyErr SVal} {pt : Pt} (h : Mindful s) (ht : Tame False s) (hp : s.points p = some pt) (hmain : pt.main = false) (hm : Modest pt) (h2 : p ≠ 2)
    (hc : ∀ pt, s.points 2 = some pt → Cyc pt → p ≠ s.target 2) (hs : Outer p s (s.resume C p x)) : Mindful (s.resume C p x) := by
  cases hp2 : s.points 2 with
  | none => exact mindful_dead (by rw [hs.others.points 2 ht.two h2.symm]; exact hp2)
  | some pt2 =>
    have hkn := known_tame ht
    obtain ⟨a, b⟩ := harky_code C (x := x) hmain hm s hkn
    have hmod : ∀ n, pt.module = some n → alook n s.extra = some p := fun n hn => (h pt2 hp2).kinds p pt n hp hn
    rw [resume_eq C hp] at hs ⊢
    have hend : ∀ v, Outer p s ((code C pt x s).1.ends p v) → Mindful ((code C pt x s).1.ends p v) := fun v hs => by
      have hpts : ∀ q, ((code C pt x s).1.ends p v).points q = if q = p then Option.none else (code C pt x s).1.points q := fun q => rfl
      refine mindful_outer (P := (code C pt x s).1.points) h ht hs h2 hc (hark_trans hkn a (hark_trigger _ p v)) (fun r hr => by rw [hpts, if_neg hr]) hmod fun pt' hpt' => ?_
      rw [hpts, if_pos rfl] at hpt'; cases hpt'
    rcases hcd : code C pt x s with ⟨s1, y | r⟩
    · rw [hcd] at hs hend
      exact hend _ hs
    · rw [hcd] at hs hend a b
      cases r with
      | done v => exact hend _ hs
      | wait ev pt' =>
        have hpts : ∀ q, (s1.waits p ev pt').points q = if q = p then some pt' else s1.points q := fun q => rfl
        have hk1 : Hark pt.module Option.none s1 { (s1.waits p ev pt') with points := s1.points } := hark_events le_rfl (fun _ _ h => isSome_fset (fun h => h) h) rfl rfl rfl rfl rfl
        refine mindful_outer (P := s1.points) h ht hs h2 hc (hark_trans hkn a hk1) (fun r hr => by show (s1.waits p ev pt').points r = _; rw [hpts, if_neg hr]) hmod fun pt'' hpt'' => ?_
        change (s1.waits p ev pt').points p = _ at hpt''
        rw [hpts, if_pos rfl] at hpt''
        cases hpt''
        exact b ev pt' rfl

/-! ## The process of a cycle -/

/-- Nothing is done to modules. -/
structure Bond (s s' : Sim) : Prop where
  now : s'.now = s.now
  points : s'.points = s.points
  target : s'.target = s.target
  next : s.next ≤ s'.next
  trig : ∀ x < s.next, s.triggered x = true → s'.triggered x = true
  act : s'.activate = s.activate
  started : s'.started = s.started
  extra : s'.extra = s.extra

theorem bond_refl (s : Sim) : Bond s s := ⟨rfl, rfl, rfl, le_rfl, fun _ _ h => h, rfl, rfl, rfl⟩
theorem bond_trans {a b d : Sim} (h1 : Bond a b) (h2 : Bond b d) : Bond a d :=
  ⟨h2.now.trans h1.now, h2.points.trans h1.points, h2.target.trans h1.target, h1.next.trans h2.next, fun x hx h => h2.trig x (hx.trans_le h1.next) (h1.trig x hx h), h2.act.trans h1.act,
    h2.started.trans h1.started, h2.extra.trans h1.extra⟩

theorem bond_trigger (s : Sim) (ev : ℕ) (v : Except PyErr SVal) : Bond s (s.trigger ev v) := ⟨rfl, rfl, rfl, le_rfl, fun _ _ h => isSome_fset (fun _ => rfl) h, rfl, rfl, rfl⟩

theorem bond_succeed (ev : ℕ) (s : Sim) : Bond s (succeed ev s).1 ∧ (succeed ev s).1.w = s.w := by
  unfold succeed
  split
  · exact ⟨bond_refl s, rfl⟩
  · exact ⟨bond_trigger s ev _, rfl⟩

theorem bond_timeout (d : ℚ) (s : Sim) : Bond s (timeout d s).1 ∧ (timeout d s).1.w = s.w := by
  unfold timeout
  split
  · exact ⟨bond_refl s, rfl⟩
  · exact ⟨⟨rfl, rfl, rfl, Nat.le_succ _, fun x hx h => (triggered_alloc_old hx).trans h, rfl, rfl, rfl⟩, rfl⟩

theorem bond_activate (e : Ev) (s : Sim) : Bond s (activateProc e s).1 ∧ (activateProc e s).1.w = s.w := by
  rcases activateProc_cases e with hp | hp <;> rw [hp]
  · exact ⟨bond_refl s, rfl⟩
  · dsimp only
    split
    · exact ⟨bond_refl s, rfl⟩
    · exact bond_succeed _ s

theorem bond_print (e : Ev) (s : Sim) : Bond s (printEvent e s).1 ∧ (printEvent e s).1.w = s.w := by
  rcases printEvent_cases e with ⟨_, h⟩ | ⟨_, h⟩ <;> rw [h]
  · exact ⟨bond_refl s, rfl⟩
  · exact ⟨⟨rfl, rfl, rfl, le_rfl, fun _ _ h => h, rfl, rfl, rfl⟩, rfl⟩

theorem bond_envInteraction (s : Sim) : Bond s (envInteraction s).1 ∧ (envInteraction s).1.w.procs = s.w.procs := by
  unfold envInteraction
  cases s.w.env with
  | none => exact ⟨bond_refl s, rfl⟩
  | some env =>
    dsimp only
    split
    · unfold SimM.bind
      obtain ⟨h1, h2⟩ := bond_succeed s.envActivate s
      rcases hs : succeed s.envActivate s with ⟨s1, x | u⟩
      · rw [hs] at h1 h2
        exact ⟨h1, by dsimp only; rw [h2]⟩
      · rw [hs] at h1 h2
        exact ⟨bond_trans h1 ⟨rfl, rfl, rfl, le_rfl, fun _ _ h => h, rfl, rfl, rfl⟩, by show s1.w.procs = _; rw [h2]⟩
    · exact ⟨⟨rfl, rfl, rfl, le_rfl, fun _ _ h => h, rfl, rfl, rfl⟩, rfl⟩

/-- The process of a cycle ends at this time. -/
def LateRes (s : Sim) (r : Except PyErr Res) : Prop :=
  (∀ ev pt, r = .ok (.wait ev pt) → ∃ name e k T, pt = .localWait name e k ∧ e.time ≤ s.now ∧ T ≤ s.now ∧ Bears s.w ∧ ∀ w', Bears w' → Ends T (k w')) ∧ (r = .ok (.done .procs) → Bears s.w)

/-- The process of a cycle goes on. -/
def GoesRes (s : Sim) (r : Except PyErr Res) : Prop :=
  ∀ ev pt, r = .ok (.wait ev pt) → ∃ name e k T, pt = .localWait name e k ∧ (T ≤ s.now ∨ T ≤ e.time) ∧ ∀ w', Keep s.w w' → Settles T w' (k w')

theorem late_error {y : PyErr} : LateRes s (.error y) := ⟨fun _ _ he => (by cases he), fun he => (by cases he)⟩

theorem ends_run {name : String} {o : Out Mach YV Unit} {T : ℚ} (hf : Ends T o) (hT : T ≤ s.now) : Bond s (localRun name o s).1 ∧ LateRes (localRun name o s).1 (localRun name o s).2 := by
  have hk : ∀ w : Mach, Bond s { s with w := w } := fun w => ⟨rfl, rfl, rfl, le_rfl, fun _ _ h => h, rfl, rfl, rfl⟩
  cases o with
  | yield w y k =>
    cases y with
    | ev e =>
      obtain ⟨h1, h2, h3⟩ := hf
      obtain ⟨t1, t2⟩ := bond_timeout (e.time - round4 s.now) { s with w := w }
      have t1 := bond_trans (hk w) t1
      rcases hto : timeout (e.time - round4 s.now) { s with w := w } with ⟨s1, x | t⟩
      · rw [localRun_error hto]
        rw [hto] at t1
        exact ⟨t1, late_error⟩
      · rw [localRun_ok hto]
        rw [hto] at t1 t2
        refine ⟨t1, fun ev pt he => ?_, by simp⟩
        cases he
        have hn : s1.now = s.now := t1.now
        exact ⟨name, e, k, T, rfl, by show e.time ≤ s1.now; rw [hn]; exact h1.trans hT, by show T ≤ s1.now; rw [hn]; exact hT, by show Bears s1.w; rw [t2]; exact h2, h3⟩
    | cont d => exact ⟨hk w, fun _ _ he => (by cases he), fun he => (by cases he)⟩
    | procs => exact ⟨hk w, fun _ _ he => (by cases he), fun _ => hf⟩
    | nothing => exact ⟨hk w, fun _ _ he => (by cases he), fun he => (by cases he)⟩
  | ret w r => exact ⟨hk w, fun _ _ he => (by cases he), fun he => (by cases he)⟩
  | raise w x => exact ⟨hk w, fun _ _ he => (by cases he), fun he => (by cases he)⟩

theorem settles_run {name : String} {o : Out Mach YV Unit} {T : ℚ} (hf : Settles T s.w o) (hT : T ≤ s.now) :
    Bond s (localRun name o s).1 ∧ (LateRes (localRun name o s).1 (localRun name o s).2 ∨ (NoMore (localRun name o s).1.w s.w ∧ GoesRes (localRun name o s).1 (localRun name o s).2)) := by
  have hk : ∀ w : Mach, Bond s { s with w := w } := fun w => ⟨rfl, rfl, rfl, le_rfl, fun _ _ h => h, rfl, rfl, rfl⟩
  cases o with
  | yield w y k =>
    cases y with
    | ev e =>
      obtain ⟨t1, t2⟩ := bond_timeout (e.time - round4 s.now) { s with w := w }
      have t1 := bond_trans (hk w) t1
      rcases hto : timeout (e.time - round4 s.now) { s with w := w } with ⟨s1, x | t⟩
      · rw [localRun_error hto]
        rw [hto] at t1
        exact ⟨t1, .inl late_error⟩
      · rw [localRun_ok hto]
        rw [hto] at t1 t2
        have hn : s1.now = s.now := t1.now
        refine ⟨t1, ?_⟩
        rcases hf with ⟨h1, T', h2, h3⟩ | ⟨h1, h2, h3⟩
        · refine .inr ⟨by show NoMore s1.w s.w; rw [t2]; exact h1, fun ev pt he => ?_⟩
          cases he
          refine ⟨name, e, k, T', rfl, h2.imp_left fun h => ?_, fun w' hw' => h3 w' ?_⟩
          · show T' ≤ s1.now
            rw [hn]; exact h.trans hT
          · have hw' : Keep s1.w w' := hw'
            rw [t2] at hw'; exact hw'
        · refine .inl ⟨fun ev pt he => ?_, by simp⟩
          cases he
          exact ⟨name, e, k, T, rfl, by show e.time ≤ s1.now; rw [hn]; exact h1.trans hT, by show T ≤ s1.now; rw [hn]; exact hT, by show Bears s1.w; rw [t2]; exact h2, h3⟩
    | cont d => exact ⟨hk w, .inl ⟨fun _ _ he => (by cases he), fun he => (by cases he)⟩⟩
    | procs =>
      refine ⟨hk w, ?_⟩
      rcases hf with hf | hf
      · exact .inr ⟨hf, fun _ _ he => (by cases he)⟩
      · exact .inl ⟨fun _ _ he => (by cases he), fun _ => hf⟩
    | nothing => exact ⟨hk w, .inl ⟨fun _ _ he => (by cases he), fun he => (by cases he)⟩⟩
  | ret w r => exact ⟨hk w, .inl ⟨fun _ _ he => (by cases he), fun he => (by cases he)⟩⟩
  | raise w x => exact ⟨hk w, .inl ⟨fun _ _ he => (by cases he), fun he => (by cases he)⟩⟩

/-- What the process of a cycle does. -/
theorem cycle_code {C : Cfg} {x : Except PyErr SVal} {pt pt2 : Pt} (h : Minds s pt2) (hcy : Cyc pt2) (htg : s.target 2 = p) (hp : s.points p = some pt)
    (hl : ∃ name, (∃ g, pt = .localNew name g) ∨ ∃ e k, pt = .localWait name e k) (hd : ∀ t v, pt.due = some t → x = .ok v → t = s.now) :
    Bond s (code C pt x s).1 ∧ (LateRes (code C pt x s).1 (code C pt x s).2 ∨ (¬ Lately s p ∧ NoMore (code C pt x s).1.w s.w ∧ GoesRes (code C pt x s).1 (code C pt x s).2)) := by
  have herr : ∀ y, Bond s (SimM.throw y s : Sim × Except PyErr Res).1 ∧ (LateRes (SimM.throw y s : Sim × Except PyErr Res).1 (SimM.throw y s : Sim × Except PyErr Res).2 ∨
      (¬ Lately s p ∧ NoMore (SimM.throw y s : Sim × Except PyErr Res).1.w s.w ∧ GoesRes (SimM.throw y s : Sim × Except PyErr Res).1 (SimM.throw y s : Sim × Except PyErr Res).2)) := fun y =>
    ⟨bond_refl s, .inl late_error⟩
  obtain ⟨name, ⟨g, rfl⟩ | ⟨e, k, rfl⟩⟩ := hl
  · rcases x with y | v
    · exact herr y
    · obtain ⟨a, b⟩ := settles_run (name := name) (h.new hcy name g (by rw [htg]; exact hp) s.now s.w) (s := s) le_rfl
      refine ⟨a, b.imp_right fun ⟨b1, b2⟩ => ⟨?_, b1, b2⟩⟩
      rintro (⟨h1, _⟩ | ⟨_, _, _, _, h1, _⟩) <;> rw [hp] at h1 <;> cases h1
  · rcases x with y | v
    · by_cases hi : y = .interrupt
      · subst hi; exact ⟨bond_refl s, .inl ⟨fun _ _ he => (by cases he), fun he => (by cases he)⟩⟩
      · have : code C (.localWait name e k) (.error y) = .throw y := by cases y <;> first | rfl | exact absurd rfl hi
        rw [this]; exact herr y
    · have ht : e.time = s.now := hd _ v rfl rfl
      obtain ⟨hn0, hw0⟩ := bond_print e s
      set s0 := (printEvent e s).1 with hs0
      have heq : code C (.localWait name e k) (.ok v) s = (do activateProc e; envInteraction; let w ← SimM.get Sim.w; localRun name (k w) : SimM Res) s0 := by
        show SimM.bind (printEvent e) _ s = _
        rw [hs0]
        rcases printEvent_cases e with ⟨_, hpe⟩ | ⟨_, hpe⟩ <;> rw [hpe] <;> rfl
      have hgoal : ∀ r : Sim × Except PyErr Res, r = SimM.bind (activateProc e) (fun _ => SimM.bind envInteraction fun _ => SimM.bind (SimM.get Sim.w) fun w => localRun name (k w)) s0 →
          Bond s r.1 ∧ (LateRes r.1 r.2 ∨ (¬ Lately s p ∧ NoMore r.1.w s.w ∧ GoesRes r.1 r.2)) := by
        intro r hr
        obtain ⟨a1, a2⟩ := bond_activate e s0
        unfold SimM.bind SimM.get at hr
        rcases ha : activateProc e s0 with ⟨s1, y | u⟩
        · rw [ha] at a1 hr; subst hr; exact ⟨bond_trans hn0 a1, .inl late_error⟩
        · rw [ha] at a1 a2 hr
          dsimp only at hr
          obtain ⟨b1, b2⟩ := bond_envInteraction s1
          rcases hb : envInteraction s1 with ⟨s2, y | u⟩
          · rw [hb] at b1 hr; subst hr; exact ⟨bond_trans hn0 (bond_trans a1 b1), .inl late_error⟩
          · rw [hb] at b1 b2 hr
            dsimp only at hr a2 b2
            have hpr : s2.w.procs = s.w.procs := by rw [b2, a2, hw0]
            have hbond := bond_trans hn0 (bond_trans a1 b1)
            have hn2 : s2.now = s.now := hbond.now
            by_cases hlate : Lately s p
            · rcases hlate with ⟨h1, _⟩ | ⟨name', e', k', T, h1, _, h3, h4, h5⟩
              · rw [hp] at h1; cases h1
              · rw [hp] at h1; cases h1
                obtain ⟨c1, c2⟩ := ends_run (name := name) (s := s2) (h5 s2.w (keep_procs hpr h4)) (by rw [hn2]; exact h3)
                subst hr
                exact ⟨bond_trans hbond c1, .inl c2⟩
            · rcases h.wait hcy name e k (by rw [htg]; exact hp) with h1 | ⟨T, h1, h3⟩
              · rw [htg] at h1; exact absurd h1 hlate
              · have hT : T ≤ s2.now := by
                  rw [hn2]
                  rcases h1 with h1 | h1
                  · exact h1
                  · rw [← ht]; exact h1
                obtain ⟨c1, c2⟩ := settles_run (name := name) (s := s2) (h3 s2.w (keep_procs hpr)) hT
                subst hr
                refine ⟨bond_trans hbond c1, c2.imp_right fun ⟨c3, c4⟩ => ⟨hlate, fun n => ?_, c4⟩⟩
                have := c3 n
                rw [hpr] at this
                exact this
      exact hgoal _ heq

theorem mindful_child {C : Cfg} {x : Except PyErr SVal} {pt pt2 : Pt} (h : Mindful s) (ht : Tame False s) (h2 : s.points 2 = some pt2) (hcy : Cyc pt2) (htg : s.target 2 = p) (hne : p ≠ 2)
    (hp : s.points p = some pt) (hl : ∃ name, (∃ g, pt = .localNew name g) ∨ ∃ e k, pt = .localWait name e k) (hd : ∀ t v, pt.due = some t → x = .ok v → t = s.now) :
    Mindful (s.resume C p x) := by
  have hw := h pt2 h2
  have hkn := known_tame ht
  obtain ⟨a, b⟩ := cycle_code (C := C) hw hcy htg hp hl hd
  have hmod : pt.module = Option.none := by obtain ⟨_, ⟨_, rfl⟩ | ⟨_, _, rfl⟩⟩ := hl <;> rfl
  -- the state afterwards
  have key : ∀ (s1 s' : Sim), Bond s s1 → s'.w = s1.w → s'.points 2 = some pt2 → s'.target 2 = p → (∀ q, q ≠ p → s'.points q = s.points q) →
      (∀ pt', s'.points p = some pt' → ∃ name e k, pt' = .localWait name e k) → (∀ x < s.next, s1.triggered x = true → s'.triggered x = true) →
      s'.activate = s1.activate → s'.started = s1.started → s'.extra = s1.extra →
      (Lately s' p ∨ (¬ Lately s p ∧ NoMore s1.w s.w ∧ ∀ name e k, s'.points p = some (.localWait name e k) → ∃ T, (T ≤ s'.now ∨ T ≤ e.time) ∧ ∀ w', Keep s'.w w' → Settles T w' (k w'))) →
      Mindful s' := fun s1 s' hb hww k1 k2 k3 k4 k5 k6 k7 k8 k9 pt' hpt' => by
    rw [k1] at hpt'; cases hpt'
    have hcalled : ∀ n, Called s n → Called s' n := fun n hc a ha => by
      rw [k6, hb.act] at ha
      exact k5 a (hkn n a ha) (hb.trig a (hkn n a ha) (hc a ha))
    have hstarted : s'.started = s.started := k7.trans hb.started
    have hidle : ∀ e n, s'.points e = some (.extraIdle n) → s.points e = some (.extraIdle n) := fun e n he => by
      by_cases hep : e = p
      · subst hep
        obtain ⟨_, _, _, h1⟩ := k4 _ he
        cases h1
      · rwa [k3 e hep] at he
    refine ⟨fun r pt' n hr hm => ?_, fun e n he hpos => ?_, fun hst n hpos => ?_, fun _ name g hn => ?_, fun _ name e k hn => ?_⟩
    · rw [k8, hb.extra]
      by_cases hrp : r = p
      · subst hrp
        obtain ⟨_, _, _, rfl⟩ := k4 _ hr
        cases hm
      · rw [k3 r hrp] at hr
        exact hw.kinds r pt' n hr hm
    · have he := hidle e n he
      rw [k2]
      cases hst : s.started with
      | none =>
        rcases k9 with h9 | ⟨h9, h10, _⟩
        · exact .inr ⟨hstarted.trans hst, hcy, h9⟩
        · have h1 : s'.startedList = s1.w.procs := by unfold Sim.startedList; rw [hstarted, hst, hww]; rfl
          have h3 : s.startedList = s.w.procs := by unfold Sim.startedList; rw [hst]; rfl
          rw [h1] at hpos
          rcases hw.idle e n he (by rw [h3]; exact hpos.trans_le (h10 n)) with h4 | ⟨_, _, h4⟩
          · exact .inl (hcalled n h4)
          · rw [htg] at h4; exact absurd h4 h9
      | some l =>
        have h1 : s'.startedList = s.startedList := by unfold Sim.startedList; rw [hstarted, hst]; rfl
        rw [h1] at hpos
        rcases hw.idle e n he hpos with h4 | ⟨h4, _, _⟩
        · exact .inl (hcalled n h4)
        · rw [hst] at h4; cases h4
    · refine ⟨hcy, ?_⟩
      rw [k2]
      rcases k9 with h9 | ⟨h9, h10, _⟩
      · exact h9
      · have hpos : 0 < orders n s1.w.procs := by rw [hww] at hpos; exact hpos
        have := (hw.fresh (by rw [← hstarted]; exact hst) n (hpos.trans_le (h10 n))).2
        rw [htg] at this
        exact absurd this h9
    · rw [k2] at hn
      obtain ⟨_, _, _, h1⟩ := k4 _ hn
      cases h1
    · rw [k2] at hn ⊢
      rcases k9 with h9 | ⟨_, _, h11⟩
      · exact .inl h9
      · exact .inr (h11 name e k hn)
  have hend : ∀ v, (v = .ok .procs → (code C pt x s).2 = .ok (.done .procs)) → Mindful ((code C pt x s).1.ends p v) := fun v hv => by
    have hpts : ∀ q, ((code C pt x s).1.ends p v).points q = if q = p then Option.none else (code C pt x s).1.points q := fun q => rfl
    have hpn : ((code C pt x s).1.ends p v).points p = Option.none := by rw [hpts, if_pos rfl]
    refine key (code C pt x s).1 _ a rfl ?_ ?_ (fun q hq => by rw [hpts, if_neg hq, a.points]) (fun pt' hpt' => ?_) (fun _ _ h => isSome_fset (fun _ => rfl) h) rfl rfl rfl ?_
    · rw [hpts, if_neg hne.symm, a.points]; exact h2
    · show (code C pt x s).1.target 2 = p; rw [a.target]; exact htg
    · rw [hpn] at hpt'; cases hpt'
    · rcases b with b | ⟨b1, b2, _⟩
      · refine .inl (.inl ⟨hpn, fun hval => b.2 (hv ?_)⟩)
        rw [value_ends, if_pos rfl] at hval
        simpa using hval
      · exact .inr ⟨b1, b2, fun name e k hn => by rw [hpn] at hn; cases hn⟩
  rw [resume_eq C hp]
  rcases hc : code C pt x s with ⟨s1, y | r⟩
  · rw [hc] at hend
    exact hend _ (by simp)
  · rw [hc] at hend a b
    cases r with
    | done v => exact hend _ fun hv => by cases hv; rfl
    | wait ev pt' =>
      have hpts : ∀ q, (s1.waits p ev pt').points q = if q = p then some pt' else s1.points q := fun q => rfl
      have htgs : ∀ q, (s1.waits p ev pt').target q = if q = p then ev else s1.target q := fun q => rfl
      have hpoints : s1.points = s.points := a.points
      have htarget : s1.target = s.target := a.target
      have hpp : (s1.waits p ev pt').points p = some pt' := by rw [hpts, if_pos rfl]
      have hloc : ∃ name e k, pt' = .localWait name e k := by
        rcases b with b | ⟨_, _, b⟩
        · obtain ⟨name, e, k, _, h1, _⟩ := b.1 ev pt' rfl; exact ⟨name, e, k, h1⟩
        · obtain ⟨name, e, k, _, h1, _⟩ := b ev pt' rfl; exact ⟨name, e, k, h1⟩
      show Mindful (s1.waits p ev pt')
      refine key s1 _ a rfl ?_ ?_ (fun q hq => by rw [hpts, if_neg hq, hpoints]) (fun pt'' hpt'' => ?_) (fun _ _ h => isSome_fset (fun h => h) h) rfl rfl rfl ?_
      · rw [hpts, if_neg hne.symm, hpoints]; exact h2
      · rw [htgs, if_neg hne.symm, htarget]; exact htg
      · rw [hpp] at hpt''; cases hpt''; exact hloc
      · rcases b with b | ⟨b1, b2, b3⟩
        · obtain ⟨name, e, k, T, rfl, h3, h4, h5, h6⟩ := b.1 ev _ rfl
          exact .inl (.inr ⟨name, e, k, T, hpp, h3, h4, h5, h6⟩)
        · refine .inr ⟨b1, b2, fun name e k hn => ?_⟩
          rw [hpp] at hn
          cases hn
          obtain ⟨name', e', k', T, h3, h4, h5⟩ := b3 ev _ rfl
          cases h3
          exact ⟨T, h4, h5⟩

/-! ## Process number 2 -/

/-- All modules with requests have been called. -/
structure Heard (s : Sim) : Prop where
  kinds : ∀ p pt' n, s.points p = some pt' → pt'.module = some n → alook n s.extra = some p
  idle : ∀ e n, s.points e = some (.extraIdle n) → 0 < orders n s.startedList → Called s n
  fresh : s.started.isSome → ∀ n, orders n s.w.procs = 0

theorem heard_hark (h : Heard s) (hkn : Known s) (hk : Hark Option.none Option.none s s') : Heard s' := by
  refine ⟨fun p pt' n hp hm => ?_, fun e n he hpos => ?_, fun hst n => ?_⟩
  · rw [hk.extra]
    rcases hk.pts p pt' hp with h1 | ⟨_, h1⟩
    · exact h.kinds p pt' n h1 hm
    · rw [h1] at hm; cases hm
  · rcases hk.pts e _ he with h1 | ⟨_, h1⟩
    · rcases hk.ords n (by simp) (by simp) with h3 | h3
      · exact called_hark hkn hk (by simp) (h.idle e n h1 (hpos.trans_le h3))
      · exact h3
    · cases h1
  · have hst' : s.started.isSome := by rw [← hk.own]; exact hst
    rw [hk.procs hst']; exact h.fresh hst' n

theorem mindful_waits {s1 : Sim} {ev : ℕ} {pt : Pt} (h : Heard s1) (hm : pt.module = Option.none)
    (hcy : Cyc pt → ev ≠ 2 ∧ ∃ name g, s1.points ev = some (.localNew name g) ∧ ∀ T w, Settles T w (g w)) : Mindful (s1.waits 2 ev pt) := by
  have hpts : ∀ q, (s1.waits 2 ev pt).points q = if q = 2 then some pt else s1.points q := fun q => rfl
  have htg : (s1.waits 2 ev pt).target 2 = ev := rfl
  intro pt' hpt'
  rw [hpts, if_pos rfl] at hpt'
  cases hpt'
  refine ⟨fun r pt' n hr hmod => ?_, fun e n he hpos => .inl fun a ha => ?_, fun hst n hpos => ?_, fun hc name g hn => ?_, fun hc name e k hn => ?_⟩
  · rw [hpts] at hr
    split at hr
    · cases hr; rw [hm] at hmod; cases hmod
    · exact h.kinds r pt' n hr hmod
  · rw [hpts] at he
    split at he
    · cases he; cases hm
    · exact isSome_fset (fun h => h) (h.idle e n he hpos a ha)
  · have := h.fresh hst n
    have hpos : 0 < orders n s1.w.procs := hpos
    omega
  · obtain ⟨h1, name', g', h3, h4⟩ := hcy hc
    rw [htg, hpts, if_neg h1, h3] at hn
    cases hn
    exact h4
  · obtain ⟨h1, name', g', h3, h4⟩ := hcy hc
    rw [htg, hpts, if_neg h1, h3] at hn
    cases hn

theorem hark_spins (n : ℕ) (s : Sim) : Hark Option.none Option.none s (procSpins n s).1 := by
  rw [spins_eq]; exact hark_timer s _ _ _

theorem heard_loop (hst : s.started = Option.none) (hkn : Known s) (hkd : ∀ p pt' n, s.points p = some pt' → pt'.module = some n → alook n s.extra = some p) (hb : ¬ Bears s.w → Heard s) {s1 : Sim} {ev : ℕ} {pt : Pt}
    (hl : procLoop s = (s1, .ok (.wait ev pt))) : Heard s1 ∧ ¬ Cyc pt ∧ pt.module = Option.none := by
  have hlist : s.startedList = s.w.procs := by unfold Sim.startedList; rw [hst]; rfl
  have hspin : ∀ s2 : Sim, Heard s2 → Known s2 → procSpins 4 s2 = (s1, .ok (.wait ev pt)) → Heard s1 ∧ ¬ Cyc pt ∧ pt.module = Option.none := fun s2 h2 hk2 he => by
    have h3 := heard_hark h2 hk2 (hark_spins 4 s2)
    rw [he] at h3
    rw [spins_eq] at he
    cases he
    exact ⟨h3, (by rintro (h | h) <;> cases h), rfl⟩
  by_cases hbr : Bears s.w
  · have hany : s.startedList.any (fun x => match x with | .procedural => true | _ => false) = true := by
      rw [hlist]; exact List.any_eq_true.2 ⟨_, hbr, rfl⟩
    have hset : Hark Option.none Option.none s (s.setStarted (removeProcedural s.startedList)) := hark_setStarted fun m _ _ => by rw [orders_remove]
    set s2 := s.setStarted (removeProcedural s.startedList) with hs2
    have hkn2 := hset.known hkn
    obtain ⟨h1, h2⟩ := harky_notifyAll s2.startedList hkn2
    have heq : procLoop s = SimM.bind (notifyAll s2.startedList) (fun _ => procSpins 4) s2 := by
      exact congrFun (if_pos hany) s
    rw [heq] at hl
    unfold SimM.bind at hl
    rcases hn : notifyAll s2.startedList s2 with ⟨s3, y | u⟩
    · rw [hn] at hl; cases hl
    · rw [hn] at h1 h2 hl
      dsimp only at h1 h2 hl
      have hh := hark_trans hkn hset h1
      refine hspin s3 ⟨fun p pt' n hp hm => ?_, fun e n he hpos => ?_, fun hsm => ?_⟩ (h1.known hkn2) hl
      · rw [hh.extra]
        rcases hh.pts p pt' hp with h4 | ⟨_, h4⟩
        · exact hkd p pt' n h4 hm
        · rw [h4] at hm; cases hm
      · rcases h1.ords n (by simp) (by simp) with h4 | h4
        · exact h2 rfl n (hpos.trans_le h4)
        · exact h4
      · rw [none_of_own hh hst] at hsm; cases hsm
  · have hany : ¬ s.startedList.any (fun x => match x with | .procedural => true | _ => false) = true := by
      rw [hlist]
      intro h
      obtain ⟨x, hx, hx'⟩ := List.any_eq_true.1 h
      cases x with
      | procedural => exact hbr hx
      | gen _ _ _ => cases hx'
    have heq : procLoop s = (if s.processed s.procActivate then procSpins 4 else pure (.wait s.procActivate .procIdle) : SimM Res) s := by
      exact congrFun (if_neg hany) s
    rw [heq] at hl
    split at hl
    · exact hspin s (hb hbr) hkn hl
    · cases hl
      exact ⟨hb hbr, (by rintro (h | h) <;> cases h), rfl⟩

theorem mindful_main {C : Cfg} {x : Except PyErr SVal} {pt : Pt} (h : Mindful s) (hr : Run s) (ht : Tame False s) (hp : s.points 2 = some pt)
    (hx : x = .ok .procs → (s.events (s.target 2)).value = some (.ok .procs)) : Mindful (s.resume C 2 x) := by
  have hmain := (ht.alive pt hp).1
  have hw := h pt hp
  have hkn := known_tame ht
  have hend : ∀ (s1 : Sim) v, Mindful (s1.ends 2 v) := fun s1 v => mindful_dead (by show fset s1.points 2 Option.none 2 = Option.none; exact fset_same _ _ _)
  have hgo : (∀ s1 ev pt', code C pt x s = (s1, .ok (.wait ev pt')) → Mindful (s1.waits 2 ev pt')) → Mindful (s.resume C 2 x) := fun hgo => by
    rcases hc : code C pt x s with ⟨s1, y | r⟩
    · rw [resume_eq C hp, hc]; exact hend s1 _
    · cases r with
      | done v => rw [resume_eq C hp, hc]; exact hend s1 _
      | wait ev pt' => rw [resume_ok_eq hp hc]; exact hgo s1 ev pt' hc
  refine hgo fun s1 ev pt' hc => ?_
  have hheard : ¬ Cyc pt → Heard s := fun hcy => ⟨hw.kinds, fun e n he hpos => (hw.idle e n he hpos).resolve_right fun h => hcy h.2.1, fun hst n => by
    by_contra hne
    exact hcy (hw.fresh hst n (Nat.pos_of_ne_zero hne)).1⟩
  have hcycle : ∀ pt'', Cyc pt'' → ¬ Cyc pt → code C pt x s = procCycle C pt'' s → Mindful (s1.waits 2 ev pt') := fun pt'' h1 h2 h3 => by
    rw [h3, procCycle_eq] at hc
    cases hc
    refine mindful_waits (heard_hark (hheard h2) hkn (harky_process rfl s hkn)) (by rcases h1 with rfl | rfl <;> rfl) fun _ => ⟨ht.two.ne', procName, genProcedural C s.now, ?_, fun T w => sedate_procedural C s.now w⟩
    show fset s.points s.next _ s.next = _
    rw [fset_same]
  have hspin : ∀ n, ¬ Cyc pt → code C pt x s = procSpins n s → Mindful (s1.waits 2 ev pt') := fun n h2 h3 => by
    have h4 := heard_hark (hheard h2) hkn (hark_spins n s)
    rw [← h3, hc] at h4
    rw [h3, spins_eq] at hc
    have hpt : pt' = .procSpin n := by cases hc; rfl
    subst hpt
    exact mindful_waits h4 rfl fun h => by rcases h with h | h <;> cases h
  have hafter : ∀ s0 : Sim, Cyc pt → x = .ok .procs → code C pt x s = procLoop s0 → s0.started = Option.none → s0.points = s.points → s0.w = s.w → s0.activate = s.activate → s0.extra = s.extra → s.next ≤ s0.next →
      (∀ x < s.next, s.triggered x = true → s0.triggered x = true) → Mindful (s1.waits 2 ev pt') := fun s0 hcy hxp hcode hst hpo hww hac hex hnx htr => by
    have hv := hx hxp
    have hnone : s.points (s.target 2) = Option.none := by
      by_contra hne
      rw [hr.1.live _ (Option.isSome_iff_ne_none.2 hne)] at hv
      cases hv
    have hnot : ¬ Bears s.w → ¬ Lately s (s.target 2) := fun hb hl => by
      rcases hl with ⟨_, h1⟩ | ⟨_, _, _, _, h1, _⟩
      · exact hb (h1 hv)
      · rw [hnone] at h1; cases h1
    have hk0 : Known s0 := fun m a ha => by rw [hac] at ha; exact (hkn m a ha).trans_le hnx
    have hkd : ∀ p pt' n, s0.points p = some pt' → pt'.module = some n → alook n s0.extra = some p := by rw [hpo, hex]; exact hw.kinds
    rw [hcode] at hc
    have hh : ¬ Bears s0.w → Heard s0 := fun hb => by
      refine ⟨hkd, fun e n he hpos a ha => ?_, fun hsm => by rw [hst] at hsm; cases hsm⟩
      rw [hww] at hb
      rw [hpo] at he
      rw [hac] at ha
      have hlist : s0.startedList = s.w.procs := by unfold Sim.startedList; rw [hst, hww]; rfl
      rw [hlist] at hpos
      cases hs : s.started with
      | none =>
        have hl2 : s.startedList = s.w.procs := by unfold Sim.startedList; rw [hs]; rfl
        rcases hw.idle e n he (by rw [hl2]; exact hpos) with h1 | ⟨_, _, h1⟩
        · exact htr a (hkn n a ha) (h1 a ha)
        · exact absurd h1 (hnot hb)
      | some l => exact absurd (hw.fresh (by rw [hs]; rfl) n hpos).2 (hnot hb)
    obtain ⟨h1, h2, h3⟩ := heard_loop hst hk0 hkd hh hc
    exact mindful_waits h1 h3 fun h => absurd h h2
  rcases x with y | v
  · have : code C pt (.error y) s = SimM.throw y s := by cases pt <;> first | rfl | cases hmain
    rw [this] at hc; cases hc
  · have hreturn : ∀ f : Unit → SimM Res, Cyc pt → code C pt (.ok v) = (procsReturned v >>= f) → v = .procs ∧ code C pt (.ok v) s = f () { s with started := Option.none } := fun f _ hf => by
      cases v with
      | procs => exact ⟨rfl, by rw [hf]; rfl⟩
      | cont d => rw [hf] at hc; cases hc
      | nothing => rw [hf] at hc; cases hc
    cases pt with
    | procNew => exact hcycle .procFirst (.inl rfl) (by rintro (h | h) <;> cases h) rfl
    | procFirst =>
      obtain ⟨rfl, h1⟩ := hreturn _ (.inl rfl) rfl
      exact hafter _ (.inl rfl) rfl h1 rfl rfl rfl rfl rfl le_rfl fun _ _ h => h
    | procIdle => exact hspin 4 (by rintro (h | h) <;> cases h) rfl
    | procSpin n =>
      cases n with
      | zero => exact hcycle .procAgain (.inr rfl) (by rintro (h | h) <;> cases h) rfl
      | succ n => exact hspin n (by rintro (h | h) <;> cases h) rfl
    | procAgain =>
      obtain ⟨rfl, h1⟩ := hreturn _ (.inr rfl) rfl
      exact hafter { (s.alloc ⟨Option.none, false, some []⟩) with started := Option.none, procActivate := s.next } (.inr rfl) rfl h1 rfl rfl rfl rfl rfl (Nat.le_succ _)
        fun x hx h => (triggered_alloc_old hx).trans h
    | _ => cases hmain

/-! ## Callbacks -/

/-- A process goes on. -/
theorem mindful_resume {C : Cfg} {x : Except PyErr SVal} {pt : Pt} (h : Mindful s) (ha : Aware C.ruleFiring s) (hr : Run s) (hk : Cycling C.ruleFiring s) (ht : Tame False s) (hp : s.points p = some pt)
    (hl : Loose s p) (hd : ∀ t v, pt.due = some t → x = .ok v → t = s.now) (hx : x = .ok .procs → (s.events (s.target p)).value = some (.ok .procs)) : Mindful (s.resume C p x) := by
  by_cases h2 : p = 2
  · subst h2; exact mindful_main h hr ht hp hx
  obtain ⟨_, ho, _⟩ := resume_run hr hk hp hl hd hx
  obtain ⟨st, c, hc⟩ := hk
  cases hp2 : s.points 2 with
  | none => exact mindful_dead (by rw [ho.points 2 ht.two (Ne.symm h2)]; exact hp2)
  | some pt2 =>
    by_cases hpc : p = c
    · subst hpc
      have hleg := hc.child pt hp
      rcases hc.main pt2 hp2 with ⟨hcy, htg⟩ | ⟨_, _, hn⟩
      · refine mindful_child h ht hp2 hcy htg h2 hp ?_ hd
        cases pt <;> first | exact hleg.elim | exact ⟨_, .inl ⟨_, rfl⟩⟩ | exact ⟨_, .inr ⟨_, _, rfl⟩⟩
      · rw [hn] at hp; cases hp
    · have hnt : ∀ pt, s.points 2 = some pt → Cyc pt → p ≠ s.target 2 := fun pt' h' hcy => by
        rw [hp2] at h'; cases h'
        rcases hc.main pt2 hp2 with ⟨_, htg⟩ | ⟨hre, _, _⟩
        · rw [htg]; exact hpc
        · rcases hcy with rfl | rfl <;> rcases hre with hre | hre <;> cases hre
      have hmo := (ha pt2 hp2).mods p pt hp h2 fun hcy => hnt pt2 hp2 hcy
      have hmod := hc.mods p pt hp hpc
      exact mindful_code h ht hp (by cases pt <;> first | rfl | exact absurd hmod h2) hmo h2 hnt (outer_code hr ht hp hmod hmo hd h2 ho)

theorem mindful_quiet (h : Mindful s) (ht : Tame False s) (hs : Outer s.next s s') (hk : Hark Option.none Option.none s s') (hn : s'.points s.next = Option.none) : Mindful s' :=
  mindful_outer (P := s'.points) h ht hs ht.two.ne' (fun pt hp _ => ((ht.alive pt hp).2.2.1.1).ne') hk (fun _ _ => rfl) (fun _ h => by cases h) fun pt hpt => by rw [hn] at hpt; cases hpt

theorem hark_thin (h : Thin s s') (h1 : s'.activate = s.activate) (h2 : s'.started = s.started) (h3 : s'.w = s.w) (h4 : s'.extra = s.extra) : Hark Option.none Option.none s s' :=
  hark_events h.next.ge (fun x _ hx => by unfold Sim.triggered at *; rw [h.value]; exact hx) h1 h2 (by rw [h3]) h4 h.points

theorem points_next {K : Prop} (ht : Tame K s) : s.points s.next = Option.none := by
  by_contra hne
  obtain ⟨pt, hp⟩ := Option.ne_none_iff_exists'.1 hne
  exact absurd (ht.born _ pt hp) (lt_irrefl _)

theorem mindful_callback (C : Cfg) {ev : ℕ} {v : Except PyErr SVal} {cb : Callback} {l : List Callback} (h : Mindful s) (haw : Aware C.ruleFiring s) (hg : Good C.ruleFiring s) (ht : Tame False s) (hev : ev ≠ 2)
    (hp : Pending ev v (cb :: l) s) : Mindful (callback C ev v s cb) := by
  have hi := hg.1.1
  have hod : Outer s.next s (s.defuse ev) := outer_thin thin_defuse (others_thin thin_defuse rfl rfl stops_defuse) rfl rfl rfl rfl
  have hadef : Aware C.ruleFiring (s.defuse ev) := aware_quiet haw ht hod
  have hdef : Mindful (s.defuse ev) := mindful_quiet h ht hod (hark_thin thin_defuse rfl rfl rfl rfl) (points_next (tame_defuse ht hev))
  have hdrop : ∀ {s : Sim}, Mindful s → Tame False s → ∀ (a : ℕ) (d : Callback), d.fixed = false → d ≠ .stop → Mindful (s.dropCallback a d) := fun h ht a d hf hd =>
    mindful_quiet h ht (outer_thin (thin_drop hd) (others_thin (thin_drop hd) rfl rfl (stops_drop hf)) rfl rfl rfl rfl) (hark_thin (thin_drop hd) rfl rfl rfl rfl) (points_next (tame_drop ht))
  cases cb with
  | resume p =>
    obtain ⟨hl, htg, pt, hpt, hd⟩ := hp.res p (.head _)
    rcases v with x | v
    · have hgd := good_defuse (ev := ev) hg
      exact mindful_resume (x := .error x) hdef hadef hgd.1 hgd.2 (tame_defuse ht hev) (pt := pt) hpt (fun y hy => hl y ((thin_defuse (s := s) (ev := ev)).sub y |>.subset hy)) (by simp) (by simp)
    · exact mindful_resume (x := .ok v) h haw hg.1 hg.2 ht hpt hl (fun t u htt _ => hd t htt) fun hx => by rw [htg]; rw [← hx]; exact hp.val hx
  | interrupt p =>
    obtain ⟨rfl, hno⟩ := hp.intr p (.head _)
    simp only [callback]
    split
    · exact h
    · have hgd := good_drop (ev := s.target p) (cb := .resume p) (by simp) hg
      have hth : Thin s (s.dropCallback (s.target p) (.resume p)) := thin_drop (by simp)
      have hloose : Loose (s.dropCallback (s.target p) (.resume p)) p := by
        intro x hx
        by_cases he : x = s.target p
        · subst he
          rw [cbs_drop] at hx
          have h1 := List.count_pos_iff.2 hx
          rw [List.count_erase_self] at h1
          have := hi.once (s.target p) p
          omega
        · exact he (hi.res x p ((hth.sub x).subset hx)).1.symm
      have hd := hdrop h ht (s.target p) (.resume p) rfl (by simp)
      have had : Aware C.ruleFiring (s.dropCallback (s.target p) (.resume p)) := aware_quiet haw ht (outer_thin hth (others_thin hth rfl rfl (stops_drop rfl)) rfl rfl rfl rfl)
      cases hpt : s.points p with
      | none =>
        have : (s.dropCallback (s.target p) (.resume p)).resume C p (.error .interrupt) = s.dropCallback (s.target p) (.resume p) := by
          unfold Sim.resume
          have : (s.dropCallback (s.target p) (.resume p)).points p = Option.none := hpt
          rw [this]
        rw [this]; exact hd
      | some pt => exact mindful_resume (x := .error .interrupt) hd had hgd.1 hgd.2 (tame_drop ht) (pt := pt) hpt hloose (by simp) (by simp)
  | check d =>
    have hq := hp.chk d (.head _)
    simp only [callback]
    by_cases htr : s.triggered d = true
    · rw [if_pos htr]; exact h
    · rw [if_neg htr]
      rcases v with x | v
      · have hgd := good_defuse (ev := ev) hg
        have hth : Thin s (s.defuse ev) := thin_defuse
        have ht' : (s.defuse ev).triggered d = false := by
          unfold Sim.triggered at *; rw [hth.value]; simpa using htr
        exact mindful_quiet hdef (tame_defuse ht hev) (outer_trigger (good_trigger (v := .error x) hgd ht' (thin_quiet hth hq) (by simp)).2 (by simp)) (hark_trigger _ _ _) (show s.points s.next = Option.none from points_next ht)
      · exact mindful_quiet h ht (outer_trigger (good_trigger (v := .ok .nothing) hg (by simpa using htr) hq (by simp)).2 (by simp)) (hark_trigger _ _ _) (show s.points s.next = Option.none from points_next ht)
  | build d a b => exact hdrop (hdrop h ht a (.check d) rfl (by simp)) (tame_drop ht) b (.check d) rfl (by simp)
  | stop => exact h

theorem mindful_callbacks (C : Cfg) {ev : ℕ} {v : Except PyErr SVal} : ∀ (l : List Callback) {s : Sim}, Mindful s → Aware C.ruleFiring s → Good C.ruleFiring s → Tame False s → (l ≠ [] → ev ≠ 2) →
    (∀ c, .check c ∈ l → Other s c) → Pending ev v l s → Mindful (l.foldl (callback C ev v) s)
  | [], _, h, _, _, _, _, _, _ => h
  | cb :: l, s, h, ha, hg, ht, hev, hc, hp => by
    obtain ⟨a, b, _⟩ := good_callback C hg hp
    obtain ⟨t1, t2⟩ := tame_callback C (ev := ev) (v := v) (cb := cb) ht (hev (by simp)) fun c hc' => hc c (by rw [← hc']; exact .head _)
    exact mindful_callbacks C l (mindful_callback C h ha hg ht (hev (by simp)) hp) (aware_callback C ha hg ht (hev (by simp)) hp) a t1 (fun _ => hev (by simp))
      (fun c hm => ⟨(hc c (.tail _ hm)).1.trans_le t2, (hc c (.tail _ hm)).2⟩) b

/-! ## Time passes -/

theorem mindful_same {K : Prop} (h : Mindful s) (ht : Tame K s) (hp : s'.points = s.points) (htg : s'.target = s.target) (hac : s'.activate = s.activate) (hst : s'.started = s.started) (hex : s'.extra = s.extra)
    (hn : s.now ≤ s'.now) (hw : s'.w.procs = s.w.procs) (hv : ∀ ev < s.next, (s'.events ev).value = (s.events ev).value) : Mindful s' := by
  intro pt hpt
  rw [hp] at hpt
  have h0 := h pt hpt
  have hkn := known_tame ht
  have hlt := (ht.alive pt hpt).2.2.1.1
  have hcalled : ∀ n, Called s n → Called s' n := fun n hc a ha => by
    rw [hac] at ha
    have := hc a ha
    unfold Sim.triggered at *
    rw [hv a (hkn n a ha)]; exact this
  have hlate : Lately s (s.target 2) → Lately s' (s.target 2) := fun hl => by
    rcases hl with ⟨h1, h2⟩ | ⟨name, e, k, T, h1, h2, h3, h4, h5⟩
    · exact .inl ⟨by rw [hp]; exact h1, fun h => keep_procs hw (h2 (by rw [← hv _ hlt]; exact h))⟩
    · exact .inr ⟨name, e, k, T, by rw [hp]; exact h1, h2.trans hn, h3.trans hn, keep_procs hw h4, h5⟩
  have hlist : s'.startedList = s.startedList := by unfold Sim.startedList; rw [hst, hw]
  refine ⟨by rw [hp, hex]; exact h0.kinds, fun e n he hpos => ?_, fun hs n hpos => ?_, fun hcy name g hm => ?_, fun hcy name e k hm => ?_⟩
  · rw [hp] at he
    rw [hlist] at hpos
    rw [htg, hst]
    exact (h0.idle e n he hpos).imp (hcalled n) fun ⟨a, b, c⟩ => ⟨a, b, hlate c⟩
  · rw [hst] at hs
    rw [hw] at hpos
    rw [htg]
    exact ⟨(h0.fresh hs n hpos).1, hlate (h0.fresh hs n hpos).2⟩
  · rw [htg, hp] at hm; exact h0.new hcy name g hm
  · rw [htg, hp] at hm
    rw [htg]
    rcases h0.wait hcy name e k hm with h1 | ⟨T, h1, h2⟩
    · exact .inl (hlate h1)
    · exact .inr ⟨T, h1.imp_left fun h => h.trans hn, fun w' hw' => h2 w' fun hb => hw' (keep_procs hw hb)⟩

theorem mindful_taken {en : Entry} {q : List Entry} (h : Mindful s) (hi : Inv s) (ht : Tame False s) (hq : s.queue = en :: q) : Mindful (s.taken en q) :=
  mindful_same h ht rfl rfl rfl rfl rfl (hi.ahead en (by rw [hq]; exact .head _)) rfl fun ev _ => (thin_taken s en q).value ev

theorem mindful_called {C : Cfg} {en : Entry} {q : List Entry} (h : Mindful s) (haw : Aware C.ruleFiring s) (hf : Fine C.ruleFiring s) (ha : Awake (fun _ => False) s) (ht : Tame False s) (hq : s.queue = en :: q)
    (hk : en.ev ≠ 2) (hstop : .stop ∉ s.cbs en.ev) : Mindful (s.called C en q) := by
  have hf' := fine_taken hf hq
  have h' := mindful_taken h hf.1 ht hq
  have haw' := aware_taken haw hf ha ht hq
  unfold Sim.called
  rcases hf.1.grid en (by rw [hq]; exact .head _) with hg | hg
  · exact mindful_callbacks C (s.cbs en.ev) h' haw' ⟨⟨hf'.1, hg⟩, hf'.2⟩ (tame_taken ht hf.1 hq fun he => hk he) (fun _ => hk) (fun c hc => ht.safe _ _ hc) (pending_taken hf.1 hq)
  · have : s.cbs en.ev = [] := by
      have := hg.resolve_left hstop
      simp [Sim.cbs, this]
    rw [this]; exact h'

/-! ## All states -/

/-- The list of requests and that of the rules. -/
structure Same₂ (s s' : Sim) : Prop where
  started : s'.started = s.started
  w : s'.w = s.w

theorem same_initExtra : ∀ (l : List String) (s : Sim), Same₂ s (initExtra l s).1
  | [], s => ⟨rfl, rfl⟩
  | n :: r, s => by
    by_cases hn : n = procName
    · have : initExtra (n :: r) s = initExtra r s := by
        show (if n = procName then _ else _ : SimM Unit) s = _
        rw [if_pos hn]
      rw [this]; exact same_initExtra r s
    · have h := same_initExtra r { (newEvent (process (.extraNew n) s).1).1 with
        extra := (newEvent (process (.extraNew n) s).1).1.extra ++ [(n, s.next)], activate := (newEvent (process (.extraNew n) s).1).1.activate ++ [(n, (process (.extraNew n) s).1.next)] }
      have : initExtra (n :: r) s = initExtra r { (newEvent (process (.extraNew n) s).1).1 with
        extra := (newEvent (process (.extraNew n) s).1).1.extra ++ [(n, s.next)], activate := (newEvent (process (.extraNew n) s).1).1.activate ++ [(n, (process (.extraNew n) s).1.next)] } := by
        show (if n = procName then _ else _ : SimM Unit) s = _
        rw [if_neg hn]; rfl
      rw [this]; exact ⟨h.started, h.w⟩

theorem same_init (w : Mach) (args : Option EnvArgs) (t : ℚ) : (Sim.init w args t).started = some [] ∧ (Sim.init w args t).w = w := by
  have h2 := same_initExtra (w.bufs.map Prod.fst) (process .procNew (Sim.blank w args t)).1
  unfold Sim.init
  show (SimM.bind (initExtra (w.bufs.map Prod.fst)) _ (process .procNew (Sim.blank w args t)).1).1.started = _ ∧ (SimM.bind (initExtra (w.bufs.map Prod.fst)) _ (process .procNew (Sim.blank w args t)).1).1.w = w
  unfold SimM.bind
  rcases hr : initExtra (w.bufs.map Prod.fst) (process .procNew (Sim.blank w args t)).1 with ⟨s1, x | r⟩
  · rw [hr] at h2
    exact ⟨h2.started, h2.w⟩
  · rw [hr] at h2
    dsimp only
    split
    · exact ⟨h2.started, h2.w⟩
    · exact ⟨h2.started, h2.w⟩

variable {C : Cfg} {w : Mach} {args : Option EnvArgs} {t0 : ℚ}

theorem two_init (w : Mach) (args : Option EnvArgs) (t : ℚ) : (Sim.init w args t).points 2 = some .procNew := by
  set m : SimM Unit := (do
    initExtra (w.bufs.map Prod.fst)
    if w.env.isSome then do
      let _ ← process .envNew
      pure ()
    else pure ()) with hm
  set s0 := (process .procNew (Sim.blank w args t)).1 with hs0
  have heq : Sim.init w args t = (m s0).1 := rfl
  have hg : Grows s0 (m s0).1 := by
    have : Tames False m s0 (fun _ _ => True) := by
      refine tames_bind (tames_initExtra _ (tame_start w args t)) fun _ s2 h2 _ _ => ?_
      split
      · exact tames_bind (tames_process h2 rfl trivial) fun _ s3 h3 _ _ => tames_pure h3 trivial
      · exact tames_pure h2 trivial
    exact this.2.1
  rw [heq, hg.points 2 (by show 2 < 4; omega)]
  rfl

theorem mindful_init (hw : (w.bufs.map Prod.fst).Nodup) (hf : ∀ n, orders n w.procs = 0) : Mindful (Sim.init w args t0) := by
  obtain ⟨h1, h2⟩ := same_init w args t0
  intro pt hpt
  rw [two_init] at hpt
  cases hpt
  have hcy : ¬ Cyc .procNew := by rintro (h | h) <;> cases h
  refine ⟨fun p pt' n hp hm => (ready_init w args t0 hw).poised.kind p pt' n hp id hm, fun e n he hpos => ?_, fun _ n hpos => ?_, fun h => absurd h hcy, fun h => absurd h hcy⟩
  · have : (Sim.init w args t0).startedList = [] := by unfold Sim.startedList; rw [h1]; rfl
    rw [this] at hpos
    cases hpos
  · rw [h2, hf n] at hpos; cases hpos

theorem mindful_unraised (hw : (w.bufs.map Prod.fst).Nodup) (hf : ∀ n, orders n w.procs = 0) (h : Unraised C w args t0 s) : Mindful s := by
  induction h with
  | init => exact mindful_init hw hf
  | @stop s1 q hu ih =>
    have ht := tame_unraised hu
    unfold Sim.setStop
    split
    · exact ih
    · refine mindful_same ih ht rfl rfl rfl rfl rfl le_rfl rfl fun ev hev => ?_
      show (fset s1.events s1.next _ ev).value = _
      rw [fset_other _ _ hev.ne]
  | @step s1 s2 hu hs ih =>
    have hr := reachable_unraised hu
    have hf := fine_reachable hr
    have ht := tame_unraised hu
    rcases step_cases hs with ⟨h, _⟩ | ⟨en, q, hq, ⟨_, h⟩ | ⟨hstop, h | ⟨_, h⟩⟩⟩ <;> cases h
    exact mindful_called ih (aware_unraised hu) hf (awake_reachable hr) ht hq (fun he => by obtain ⟨_, _, hx⟩ := step_two (C := C) ht hf.1 hq he; rw [hx] at hs; cases hs) hstop
  | @stopped s1 s2 hu hs ih =>
    have hr := reachable_unraised hu
    rcases step_cases hs with ⟨h, _⟩ | ⟨en, q, hq, ⟨_, h⟩ | ⟨hstop, h | ⟨_, h⟩⟩⟩ <;> cases h
    exact mindful_taken ih (fine_reachable hr).1 (tame_unraised hu) hq
  | @compile s1 hu ih =>
    have hc : (compileIn C s1.w).1.procs = s1.w.procs := by
      unfold compileIn
      split
      · dsimp only
        split <;> rfl
      · rfl
    unfold compileAtEnd
    split
    · rcases hci : compileIn C s1.w with ⟨w', x | o⟩ <;> rw [hci] at hc <;> exact mindful_same ih (tame_unraised hu) rfl rfl rfl rfl rfl le_rfl hc fun _ _ => rfl
    · exact ih

/-- When nothing more is to happen at this time, no request waits for an idle module. -/
theorem unheard (hw : (w.bufs.map Prod.fst).Nodup) (hf : ∀ n, orders n w.procs = 0) (h : Unraised C w args t0 s) (hq : ∀ en ∈ s.queue, s.now < en.time) {e : ℕ} {n : String} (he : s.points e = some (.extraIdle n)) :
    orders n s.startedList = 0 := by
  by_contra hne
  have hr := reachable_unraised h
  have hfi := fine_reachable hr
  have haw := awake_reachable hr
  have ht := tame_unraised h
  obtain ⟨pt, h2, hcase⟩ := stuck (aware_unraised h) hfi haw ht hq
  rcases (mindful_unraised hw hf h pt h2).idle e n he (Nat.pos_of_ne_zero hne) with h1 | ⟨_, hcy, h1⟩
  · obtain ⟨h3, _⟩ := (ready_reachable hw hr).poised.idle e n he id
    obtain ⟨en, hen, hev⟩ := haw.queued (s.target e) (h1 _ h3) (open_of_mem (haw.woken e _ he id))
    exact absurd ((ht.act _ _ (alook_mem h3)).2 en hen hev) (not_le.2 (hq en hen))
  · rcases hcase with ⟨rfl, _⟩ | ⟨_, name, e', k, ph, hc, _, _⟩
    · rcases hcy with h | h <;> cases h
    · rcases h1 with ⟨h1, _⟩ | ⟨_, _, _, _, h1, h3, _⟩
      · rw [hc] at h1; cases h1
      · rw [hc] at h1
        cases h1
        obtain ⟨_, _, _, en, hen, _, _, h4⟩ := waits_for hfi.1 haw hc rfl
        exact absurd (h4 ▸ h3) (not_le.2 (hq en hen))

end Verif
