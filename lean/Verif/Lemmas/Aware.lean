import Verif.Lemmas.React
import Verif.Spec.React
/-! # Rules are tried whenever modules have reported something -/
namespace Verif
open Verif.Spec

variable {rf : ℚ} {s s' : Sim} {p c : ℕ}

/-! ## The invariant -/

/-- Rules have been tried at this time. -/
def Resolved (s : Sim) : Prop := ∃ x ∈ s.trace, x.1 = s.now ∧ x.2.act = .conflict

/-- Modules have reported something at this time. -/
def Spoken (s : Sim) : Prop := ∃ x ∈ s.trace, x.1 = s.now ∧ x.2.proc ≠ procName

/-- What is known in the phases of a cycle. -/
def At (s : Sim) : Phase → Prop
  | .start t => t = s.now
  | .conf t => t = s.now ∧ Resolved s
  | .none => Resolved s
  | .sel _ => ∃ r u n, timedReports s.trace = r ++ [(u, .selected n)]
  | .late u => u = s.now
  | .acts => ∃ r u n, timedReports s.trace = r ++ [(u, .fired n)]

/-- The process number 2 waits for the process of a cycle. -/
def Cyc (pt : Pt) : Prop := pt = .procFirst ∨ pt = .procAgain

/-- A place where a cycle can wait. -/
def Paused (rf : ℚ) (s : Sim) (ph : Phase) (e : Ev) (k : Mach → Out Mach YV Unit) : Prop :=
  At s ph ∧ ∃ ph', ph.next rf e ph' ∧ (ph'.over ∨ Bears s.w) ∧ ∀ w', (ph'.over ∨ Bears w') → Phases rf (fun _ _ _ => True) ph' (k w')

/-- The process of a cycle. -/
structure Child (rf : ℚ) (s : Sim) (c : ℕ) : Prop where
  new : ∀ name g, s.points c = some (.localNew name g) →
    (∀ w, Phases rf (fun _ _ _ => True) (.start s.now) (g w)) ∧ Prompt s (s.target c) ∧ (s.events (s.target c)).value.isSome ∧ s.target c < s.next
  wait : ∀ name e k, s.points c = some (.localWait name e k) → ∃ ph, Paused rf s ph e k
  over : s.points c = Option.none → (s.events c).value = some (.ok .procs) → Bears s.w ∨ Resolved s

/-- What is known when process number 2 waits at `pt`. -/
structure Lookout (rf : ℚ) (s : Sim) (pt : Pt) : Prop where
  mods : ∀ p pt', s.points p = some pt' → p ≠ 2 → (Cyc pt → p ≠ s.target 2) → Modest pt'
  child : Cyc pt → Child rf s (s.target 2)
  idle : pt = .procIdle → s.target 2 = s.procActivate ∧ ((s.events s.procActivate).value = Option.none → Spoken s → Resolved s)
  spin : (pt = .procNew ∨ ∃ n, pt = .procSpin n) → (s.events (s.target 2)).value.isSome

/-- The invariant. -/
def Aware (rf : ℚ) (s : Sim) : Prop := ∀ pt, s.points 2 = some pt → Lookout rf s pt

/-! ## Changes from outside -/

/-- What process `p` of a module does. -/
structure Outer (p : ℕ) (s s' : Sim) : Prop where
  others : Others p s s'
  act : s'.procActivate = s.procActivate
  reports : timedReports s'.trace = timedReports s.trace
  trace : s.trace <+: s'.trace
  said : ∀ x ∈ s'.trace, x ∈ s.trace ∨ x.2.proc = procName ∨ (s'.events s'.procActivate).value.isSome
  keep : Keep s.w s'.w
  procs : ∀ ev, ev ≠ p → (s'.events ev).value = some (.ok .procs) → (s.events ev).value = some (.ok .procs)
  pts : ∀ q pt, s'.points q = some pt → s.points q = some pt ∨ Modest pt
  prompt : ∀ a < s.next, Prompt s a → Prompt s' a

theorem resolved_outer (h : s.trace <+: s'.trace) (hn : s'.now = s.now) (hr : Resolved s) : Resolved s' := by
  obtain ⟨x, h1, h2, h3⟩ := hr
  exact ⟨x, h.subset h1, by rw [hn]; exact h2, h3⟩

theorem at_outer {ph : Phase} (h : s.trace <+: s'.trace) (hn : s'.now = s.now) (ht : timedReports s'.trace = timedReports s.trace) (ha : At s ph) : At s' ph := by
  cases ph with
  | start t => exact Eq.trans ha hn.symm
  | conf t => exact ⟨ha.1.trans hn.symm, resolved_outer h hn ha.2⟩
  | none => exact resolved_outer h hn ha
  | sel t => show ∃ _, _; rw [ht]; exact ha
  | late u => exact Eq.trans ha hn.symm
  | acts => show ∃ _, _; rw [ht]; exact ha

theorem isSome_others (h : Others p s s') {ev : ℕ} (hv : (s.events ev).value.isSome) : (s'.events ev).value.isSome := by
  obtain ⟨v, hv⟩ := Option.isSome_iff_exists.1 hv
  rw [h.value ev v hv]; rfl

theorem child_outer (h : Child rf s c) (hs : Outer p s s') (hp : p ≠ c) (hc : c < s.next) : Child rf s' c := by
  have hpts := hs.others.points c hc hp.symm
  have htg := hs.others.target c hc hp.symm
  refine ⟨fun name g hn => ?_, fun name e k hw => ?_, fun hn hv => ?_⟩
  · rw [hpts] at hn
    obtain ⟨h1, h2, h3, h4⟩ := h.new name g hn
    rw [htg, hs.others.now]
    exact ⟨h1, hs.prompt _ h4 h2, isSome_others hs.others h3, h4.trans_le hs.others.next⟩
  · rw [hpts] at hw
    obtain ⟨ph, h1, ph', h2, h3, h4⟩ := h.wait name e k hw
    exact ⟨ph, at_outer hs.trace hs.others.now hs.reports h1, ph', h2, h3.imp_right hs.keep, h4⟩
  · rw [hpts] at hn
    exact (h.over hn (hs.procs c hp.symm hv)).imp hs.keep (resolved_outer hs.trace hs.others.now)

theorem aware_outer (h : Aware rf s) (ht : Tame False s) (hs : Outer p s s') (h2 : p ≠ 2) (hc : ∀ pt, s.points 2 = some pt → Cyc pt → p ≠ s.target 2) : Aware rf s' := by
  intro pt hpt
  rw [hs.others.points 2 ht.two h2.symm] at hpt
  have hw := h pt hpt
  have htg := hs.others.target 2 ht.two h2.symm
  have hlt := (ht.alive pt hpt).2.2.1.1
  refine ⟨fun q pt' hq hq2 hqc => ?_, fun hcy => ?_, fun hi => ?_, fun hsp => ?_⟩
  · rcases hs.pts q pt' hq with hq | hq
    · exact hw.mods q pt' hq hq2 (by rw [← htg]; exact hqc)
    · exact hq
  · rw [htg]; exact child_outer (hw.child hcy) hs (hc pt hpt hcy) hlt
  · obtain ⟨h3, h4⟩ := hw.idle hi
    refine ⟨by rw [htg, hs.act]; exact h3, fun hv hsp => ?_⟩
    obtain ⟨x, hx, hx1, hx2⟩ := hsp
    rcases hs.said x hx with hx | hx | hx
    · refine resolved_outer hs.trace hs.others.now (h4 ?_ ⟨x, hx, by rw [← hs.others.now]; exact hx1, hx2⟩)
      by_contra hne
      have := isSome_others hs.others (Option.isSome_iff_ne_none.2 hne)
      rw [← hs.act, hv] at this; cases this
    · exact absurd hx hx2
    · rw [hv] at hx; cases hx
  · rw [htg]; exact isSome_others hs.others (hw.spin hsp)

/-- Only callbacks are lost. -/
theorem outer_thin (ht : Thin s s') (ho : Others p s s') (ha : s'.procActivate = s.procActivate) (htr : s'.trace = s.trace) (hw : s'.w = s.w) (hq : s'.queue = s.queue) : Outer p s s' :=
  ⟨ho, ha, by rw [htr], by rw [htr], fun x hx => .inl (htr ▸ hx), by rw [hw]; exact keep_refl _, fun ev _ h => by rw [ht.value] at h; exact h, fun q pt h => .inl (by rw [← ht.points]; exact h),
    fun a _ h en hen he => by rw [ho.now]; exact h en (hq ▸ hen) he⟩

/-- An event is triggered. -/
theorem outer_trigger {ev : ℕ} {v : Except PyErr SVal} (hm : Mild s (s.trigger ev v)) (hv : v ≠ .ok .procs) : Outer p s (s.trigger ev v) := by
  refine ⟨others_mild hm, rfl, rfl, List.prefix_rfl, fun _ h => .inl h, keep_refl _, fun x _ h => ?_, fun _ _ h => .inl h, fun a _ h en hen he => ?_⟩
  · change (fset s.events ev _ x).value = _ at h
    by_cases hx : x = ev
    · subst hx; rw [fset_same] at h; exact absurd (by simpa using h) hv
    · rwa [fset_other _ _ hx] at h
  · rcases (mem_insertEntry _ _ _).1 hen with rfl | hen
    · exact (add_zero _).le
    · exact h en hen he

theorem outer_trans {a b d : Sim} (h1 : Outer p a b) (h2 : Outer p b d) : Outer p a d := by
  refine ⟨others_trans h1.others h2.others, h2.act.trans h1.act, h2.reports.trans h1.reports, h1.trace.trans h2.trace, fun x hx => ?_, keep_trans _ _ _ h1.keep h2.keep,
    fun ev hev h => h1.procs ev hev (h2.procs ev hev h), fun q pt h => ?_, fun x hx h => h2.prompt x (hx.trans_le h1.others.next) (h1.prompt x hx h)⟩
  · rcases h2.said x hx with h | h | h
    · rcases h1.said x h with h | h | h
      · exact .inl h
      · exact .inr (.inl h)
      · refine .inr (.inr ?_)
        rw [h2.act]; exact isSome_others h2.others h
    · exact .inr (.inl h)
    · exact .inr (.inr h)
  · rcases h2.pts q pt h with h | h
    · exact h1.pts q pt h
    · exact .inr h

/-! ## Processes of modules -/

theorem outer_ends {s1 : Sim} {v : Except PyErr SVal} (f1 : Calm s s1) (m1 : Mood True s s1) (g1 : Grows s s1) (ho : Others p s (s1.ends p v)) : Outer p s (s1.ends p v) := by
  have hpts : ∀ q, (s1.ends p v).points q = if q = p then Option.none else s1.points q := fun q => rfl
  have hsome : ∀ a, (s1.events a).value.isSome → ((s1.ends p v).events a).value.isSome := fun a h => by
    rw [value_ends]
    split
    · rfl
    · exact h
  refine ⟨ho, m1.act, f1.reports, m1.trace, fun x hx => (m1.said x hx).imp_right (Or.imp_right (hsome _)), m1.keep trivial, fun a ha h => ?_, fun q pt hq => ?_, fun a ha h en hen he => ?_⟩
  · rw [value_ends, if_neg ha] at h
    exact f1.procs a h
  · rw [hpts] at hq
    split at hq
    · cases hq
    · exact (m1.pts q pt hq).imp_right And.right
  · rcases (mem_insertEntry _ _ _).1 hen with rfl | hen
    · exact (add_zero _).le
    · exact prompt_grows g1 ha h en hen he

theorem outer_code {C : Cfg} {x : Except PyErr SVal} {pt : Pt} {K : Prop} (h : Run s) (ht : Tame K s) (hp : s.points p = some pt) (hmod : Modular p pt) (hm : Modest pt)
    (hd : ∀ t v, pt.due = some t → x = .ok v → t = s.now) (h2 : p ≠ 2) (ho : Others p s (s.resume C p x)) : Outer p s (s.resume C p x) := by
  have hmain : pt.main = false := by cases pt <;> first | rfl | exact absurd hmod h2
  obtain ⟨_, ⟨_, f1⟩, _⟩ := doing_code C h (h.1.wait p pt hp) hmod hd h2
  have hl : s.procActivate < s.next := ht.proc.1.1
  obtain ⟨m1, m2⟩ := moody_code (K := True) C (x := x) hmain hm s hl
  obtain ⟨_, g1, _⟩ := tames_code (C := C) (pt := pt) (x := x) ht (fun q hq => ht.refs p pt q hp hq) (ht.names p pt hp)
  rw [resume_eq C hp] at ho ⊢
  rcases hc : code C pt x s with ⟨s1, y | r⟩
  · rw [hc] at f1 m1 g1 ho
    exact outer_ends f1 m1 g1 ho
  · rw [hc] at f1 m1 m2 g1 ho
    cases r with
    | done v => exact outer_ends f1 m1 g1 ho
    | wait ev pt' =>
      have hv : ∀ x, ((s1.waits p ev pt').events x).value = (s1.events x).value := fun x => value_addCallback _ _ _ _
      have hpts : ∀ q, (s1.waits p ev pt').points q = if q = p then some pt' else s1.points q := fun q => rfl
      refine ⟨ho, m1.act, f1.reports, m1.trace, fun x hx => (m1.said x hx).imp_right (Or.imp_right fun h => by rw [hv]; exact h), m1.keep trivial, fun a _ h => f1.procs a (by rw [← hv]; exact h), fun q pt'' hq => ?_,
        fun a ha h en hen he => prompt_grows g1 ha h en hen he⟩
      rw [hpts] at hq
      split at hq
      · cases hq; exact .inr (m2 ev pt' rfl)
      · exact (m1.pts q pt'' hq).imp_right And.right

/-! ## The process of a cycle -/

/-- The waiting processes and the reports do not change. -/
structure Kin (s s' : Sim) : Prop where
  now : s'.now = s.now
  points : s'.points = s.points
  target : s'.target = s.target
  trace : s'.trace = s.trace

theorem kin_refl (s : Sim) : Kin s s := ⟨rfl, rfl, rfl, rfl⟩
theorem kin_trans {a b d : Sim} (h1 : Kin a b) (h2 : Kin b d) : Kin a d := ⟨h2.now.trans h1.now, h2.points.trans h1.points, h2.target.trans h1.target, h2.trace.trans h1.trace⟩

theorem kin_succeed (ev : ℕ) (s : Sim) : Kin s (succeed ev s).1 ∧ (succeed ev s).1.w = s.w := by
  unfold succeed
  split <;> exact ⟨⟨rfl, rfl, rfl, rfl⟩, rfl⟩

theorem kin_timeout (d : ℚ) (s : Sim) : Kin s (timeout d s).1 ∧ (timeout d s).1.w = s.w := by
  unfold timeout
  split <;> exact ⟨⟨rfl, rfl, rfl, rfl⟩, rfl⟩

theorem kin_activate (e : Ev) (s : Sim) : Kin s (activateProc e s).1 ∧ (activateProc e s).1.w = s.w := by
  rcases activateProc_cases e with hp | hp <;> rw [hp]
  · exact ⟨kin_refl s, rfl⟩
  · dsimp only
    split
    · exact ⟨kin_refl s, rfl⟩
    · exact kin_succeed _ s

theorem kin_envInteraction (s : Sim) : Kin s (envInteraction s).1 ∧ Keep s.w (envInteraction s).1.w := by
  unfold envInteraction
  cases s.w.env with
  | none => exact ⟨kin_refl s, keep_refl _⟩
  | some env =>
    dsimp only
    split
    · unfold SimM.bind
      obtain ⟨h1, h2⟩ := kin_succeed s.envActivate s
      rcases hs : succeed s.envActivate s with ⟨s1, x | u⟩
      · rw [hs] at h1 h2
        exact ⟨h1, keep_procs (by dsimp only; rw [h2])⟩
      · rw [hs] at h1 h2
        exact ⟨⟨h1.now, h1.points, h1.target, h1.trace⟩, keep_procs (by show s1.w.procs = _; rw [h2])⟩
    · exact ⟨⟨rfl, rfl, rfl, rfl⟩, keep_procs rfl⟩

/-- After a report, the next phase. -/
theorem at_print {e : Ev} {ph ph' : Phase} (ha : At s ph) (hn : ph.next rf e ph') (ht : e.time = s.now) : At (printEvent e s).1 ph' := by
  have hpr : e.act ≠ .unknown → (printEvent e s).1 = { s with trace := s.trace ++ [(s.now, e)] } := fun hu => by
    rcases printEvent_cases e with ⟨h, _⟩ | ⟨_, h⟩
    · exact absurd h hu
    · rw [h]; rfl
  have hnow : (printEvent e s).1.now = s.now := by
    rcases printEvent_cases e with ⟨_, h⟩ | ⟨_, h⟩ <;> rw [h] <;> rfl
  have htr : s.trace <+: (printEvent e s).1.trace := by
    rcases printEvent_cases e with ⟨_, h⟩ | ⟨_, h⟩ <;> rw [h]
    · exact List.prefix_rfl
    · exact List.prefix_append _ _
  have hcyc : Cyclic e.act → timedReports (printEvent e s).1.trace = timedReports s.trace ++ [(e.time, e.act)] := fun hc => by
    rw [hpr (by rintro h; rw [h] at hc; exact hc)]
    show timedReports (s.trace ++ [(s.now, e)]) = _
    rw [timedReports_snoc, if_pos hc]
  have hnot : ¬ Cyclic e.act → timedReports (printEvent e s).1.trace = timedReports s.trace := fun hc => by
    rcases printEvent_cases e with ⟨_, h⟩ | ⟨_, h⟩ <;> rw [h]
    · rfl
    · show timedReports (s.trace ++ [(s.now, e)]) = _
      rw [timedReports_snoc, if_neg hc, List.append_nil]
  cases ph with
  | start t =>
    obtain ⟨_, h2, rfl⟩ := hn
    refine ⟨Eq.trans ha hnow.symm, (s.now, e), ?_, hnow.symm, h2⟩
    rw [hpr (by rw [h2]; simp)]; simp
  | conf t =>
    obtain ⟨_, ⟨_, rfl⟩ | ⟨⟨n, h2⟩, rfl⟩⟩ := hn
    · exact resolved_outer htr hnow ha.2
    · exact ⟨_, e.time, n, by rw [hcyc (by rw [h2]; trivial), h2]⟩
  | none => exact hn.elim
  | sel t =>
    obtain ⟨h1, _, rfl⟩ := hn
    exact (h1.symm.trans ht).trans hnow.symm
  | late u =>
    obtain ⟨h1, ⟨⟨n, h2⟩, rfl⟩ | rfl⟩ := hn
    · exact ⟨_, e.time, n, by rw [hcyc (by rw [h2]; trivial), h2]⟩
    · exact Eq.trans ha hnow.symm
  | acts =>
    obtain ⟨h1, rfl⟩ := hn
    show ∃ _, _
    rw [hnot h1]; exact ha

/-- How the process of a cycle goes on. -/
def Onward (rf : ℚ) (s : Sim) (r : Except PyErr Res) : Prop :=
  (∀ ev pt, r = .ok (.wait ev pt) → ∃ name ph e k, pt = .localWait name e k ∧ Paused rf s ph e k) ∧ (r = .ok (.done .procs) → Bears s.w ∨ Resolved s)

theorem at_kin {ph : Phase} (h : Kin s s') (ha : At s ph) : At s' ph := at_outer (by rw [h.trace]) h.now (by rw [h.trace]) ha

theorem localRun_ok {name : String} {w : Mach} {e : Ev} {k : Mach → Out Mach YV Unit} {s1 : Sim} {t : ℕ} (h : timeout (e.time - round4 s.now) { s with w := w } = (s1, .ok t)) :
    localRun name (.yield w (.ev e) k) s = (s1, .ok (.wait t (.localWait name e k))) := by
  show SimM.bind (timeout (e.time - round4 s.now)) (fun t => (pure (Res.wait t (.localWait name e k)) : SimM Res)) { s with w := w } = _
  unfold SimM.bind
  rw [h]; rfl

theorem localRun_error {name : String} {w : Mach} {e : Ev} {k : Mach → Out Mach YV Unit} {s1 : Sim} {x : PyErr} (h : timeout (e.time - round4 s.now) { s with w := w } = (s1, .error x)) :
    localRun name (.yield w (.ev e) k) s = (s1, .error x) := by
  show SimM.bind (timeout (e.time - round4 s.now)) (fun t => (pure (Res.wait t (.localWait name e k)) : SimM Res)) { s with w := w } = _
  unfold SimM.bind
  rw [h]

theorem onward_run {name : String} {o : Out Mach YV Unit} {ph : Phase} (hf : Phases rf (fun _ _ _ => True) ph o) (ha : At s ph) :
    Kin s (localRun name o s).1 ∧ Onward rf (localRun name o s).1 (localRun name o s).2 := by
  have hk : ∀ w : Mach, Kin s { s with w := w } := fun w => ⟨rfl, rfl, rfl, rfl⟩
  cases o with
  | yield w y k =>
    cases y with
    | ev e =>
      obtain ⟨ph', h1, h2, h3⟩ := hf
      obtain ⟨t1, t2⟩ := kin_timeout (e.time - round4 s.now) { s with w := w }
      have t1 := kin_trans (hk w) t1
      rcases hto : timeout (e.time - round4 s.now) { s with w := w } with ⟨s1, x | t⟩
      · rw [localRun_error hto]
        rw [hto] at t1
        exact ⟨t1, by simp, by simp⟩
      · rw [localRun_ok hto]
        rw [hto] at t1 t2
        refine ⟨t1, fun ev pt he => ?_, by simp⟩
        cases he
        exact ⟨name, ph, e, k, rfl, at_kin t1 ha, ph', h1, h2.imp_right fun h => by show Bears s1.w; rw [t2]; exact h, h3⟩
    | cont d => exact ⟨hk w, fun _ _ he => (by cases he), fun he => (by cases he)⟩
    | procs =>
      refine ⟨hk w, fun _ _ he => (by cases he), fun _ => ?_⟩
      rcases hf with h | ⟨_, h⟩
      · cases ph <;> first | exact h.elim | exact .inr (at_kin (hk w) ha)
      · exact .inl h
    | nothing => exact ⟨hk w, fun _ _ he => (by cases he), fun he => (by cases he)⟩
  | ret w r => exact ⟨hk w, fun _ _ he => (by cases he), fun he => (by cases he)⟩
  | raise w x => exact ⟨hk w, fun _ _ he => (by cases he), fun he => (by cases he)⟩

/-- What is seen from outside. -/
structure Near (s s' : Sim) : Prop where
  now : s'.now = s.now
  points : s'.points = s.points
  target : s'.target = s.target

theorem onward_code {C : Cfg} {x : Except PyErr SVal} {pt : Pt} (h : Child rf s p) (hp : s.points p = some pt) (hl : ∃ name, (∃ g, pt = .localNew name g) ∨ ∃ e k, pt = .localWait name e k)
    (hd : ∀ t v, pt.due = some t → x = .ok v → t = s.now) : Near s (code C pt x s).1 ∧ Onward rf (code C pt x s).1 (code C pt x s).2 := by
  have herr : ∀ y, Near s (SimM.throw y s : Sim × Except PyErr Res).1 ∧ Onward rf (SimM.throw y s : Sim × Except PyErr Res).1 (SimM.throw y s : Sim × Except PyErr Res).2 := fun y =>
    ⟨⟨rfl, rfl, rfl⟩, fun _ _ he => (by cases he), fun he => (by cases he)⟩
  obtain ⟨name, ⟨g, rfl⟩ | ⟨e, k, rfl⟩⟩ := hl
  · rcases x with y | v
    · exact herr y
    · obtain ⟨a, b⟩ := onward_run (name := name) ((h.new name g hp).1 s.w) (s := s) rfl
      exact ⟨⟨a.now, a.points, a.target⟩, b⟩
  · rcases x with y | v
    · by_cases hi : y = .interrupt
      · subst hi; exact ⟨⟨rfl, rfl, rfl⟩, fun _ _ he => (by cases he), fun he => (by cases he)⟩
      · have : code C (.localWait name e k) (.error y) = .throw y := by cases y <;> first | rfl | exact absurd rfl hi
        rw [this]; exact herr y
    · have ht : e.time = s.now := hd _ v rfl rfl
      obtain ⟨ph, h1, ph', h2, h3, h4⟩ := h.wait name e k hp
      have h5 := at_print h1 h2 ht
      have hn0 : Near s (printEvent e s).1 ∧ (printEvent e s).1.w = s.w := by
        rcases printEvent_cases e with ⟨_, hpe⟩ | ⟨_, hpe⟩ <;> rw [hpe] <;> exact ⟨⟨rfl, rfl, rfl⟩, rfl⟩
      set s0 := (printEvent e s).1 with hs0
      have heq : code C (.localWait name e k) (.ok v) s = (do activateProc e; envInteraction; let w ← SimM.get Sim.w; localRun name (k w) : SimM Res) s0 := by
        show SimM.bind (printEvent e) _ s = _
        rw [hs0]
        rcases printEvent_cases e with ⟨_, hpe⟩ | ⟨_, hpe⟩ <;> rw [hpe] <;> rfl
      rw [heq]
      show Near s (SimM.bind (activateProc e) (fun _ => SimM.bind envInteraction fun _ => SimM.bind (SimM.get Sim.w) fun w => localRun name (k w)) s0).1 ∧
        Onward rf (SimM.bind (activateProc e) (fun _ => SimM.bind envInteraction fun _ => SimM.bind (SimM.get Sim.w) fun w => localRun name (k w)) s0).1
          (SimM.bind (activateProc e) (fun _ => SimM.bind envInteraction fun _ => SimM.bind (SimM.get Sim.w) fun w => localRun name (k w)) s0).2
      have hnear : ∀ {s'}, Kin s0 s' → Near s s' := fun hk => ⟨hk.now.trans hn0.1.now, hk.points.trans hn0.1.points, hk.target.trans hn0.1.target⟩
      obtain ⟨a1, a2⟩ := kin_activate e s0
      unfold SimM.bind SimM.get
      rcases ha : activateProc e s0 with ⟨s1, y | u⟩
      · rw [ha] at a1; exact ⟨hnear a1, fun _ _ he => (by cases he), fun he => (by cases he)⟩
      · rw [ha] at a1 a2
        dsimp only
        obtain ⟨b1, b2⟩ := kin_envInteraction s1
        rcases hb : envInteraction s1 with ⟨s2, y | u⟩
        · rw [hb] at b1; exact ⟨hnear (kin_trans a1 b1), fun _ _ he => (by cases he), fun he => (by cases he)⟩
        · rw [hb] at b1 b2
          dsimp only
          obtain ⟨c1, c2⟩ := onward_run (name := name) (s := s2) (h4 s2.w (h3.imp_right fun hb => b2 (by dsimp only at a2; rw [a2, hn0.2]; exact hb))) (at_kin (kin_trans a1 b1) h5)
          exact ⟨hnear (kin_trans (kin_trans a1 b1) c1), c2⟩

/-- The process of a cycle has run. -/
theorem aware_child {C : Cfg} {x : Except PyErr SVal} {pt pt2 : Pt} (h : Aware rf s) (h2 : s.points 2 = some pt2) (hcy : Cyc pt2) (ht : s.target 2 = p) (hne : p ≠ 2) (hp : s.points p = some pt)
    (hl : ∃ name, (∃ g, pt = .localNew name g) ∨ ∃ e k, pt = .localWait name e k) (hd : ∀ t v, pt.due = some t → x = .ok v → t = s.now) : Aware rf (s.resume C p x) := by
  have hw := h pt2 h2
  have hch := hw.child hcy
  rw [ht] at hch
  obtain ⟨a, b1, b2⟩ := onward_code (C := C) hch hp hl hd
  have hnot : pt2 ≠ .procIdle ∧ ¬ (pt2 = .procNew ∨ ∃ n, pt2 = .procSpin n) := by rcases hcy with rfl | rfl <;> simp
  have key : ∀ s' : Sim, s'.points 2 = some pt2 → s'.target 2 = p → (∀ q, q ≠ p → s'.points q = s.points q) → Child rf s' p → Aware rf s' := fun s' k1 k2 k3 k4 pt' hpt' => by
    rw [k1] at hpt'; cases hpt'
    refine ⟨fun q pt' hq hq2 hqc => ?_, fun _ => by rw [k2]; exact k4, fun hi => absurd hi hnot.1, fun hs => absurd hs hnot.2⟩
    have hqp : q ≠ p := by have := hqc hcy; rwa [k2] at this
    rw [k3 q hqp] at hq
    exact hw.mods q pt' hq hq2 fun _ => by rw [ht]; exact hqp
  have hend : ∀ v, (v = .ok .procs → Bears (code C pt x s).1.w ∨ Resolved (code C pt x s).1) → Aware rf ((code C pt x s).1.ends p v) := fun v hv => by
    have hpts : ∀ q, ((code C pt x s).1.ends p v).points q = if q = p then Option.none else (code C pt x s).1.points q := fun q => rfl
    refine key _ ?_ ?_ (fun q hq => by rw [hpts, if_neg hq, a.points]) ⟨fun name g hn => ?_, fun name e k hn => ?_, fun _ hval => ?_⟩
    · rw [hpts, if_neg hne.symm, a.points]; exact h2
    · show (code C pt x s).1.target 2 = p; rw [a.target]; exact ht
    · rw [hpts, if_pos rfl] at hn; cases hn
    · rw [hpts, if_pos rfl] at hn; cases hn
    · rw [value_ends, if_pos rfl] at hval
      exact hv (by simpa using hval)
  rw [resume_eq C hp]
  rcases hc : code C pt x s with ⟨s1, y | r⟩
  · rw [hc] at hend
    exact hend _ (by simp)
  · rw [hc] at hend a b1 b2
    cases r with
    | done v => exact hend _ fun hv => b2 (by cases hv; rfl)
    | wait ev pt' =>
      have hpts : ∀ q, (s1.waits p ev pt').points q = if q = p then some pt' else s1.points q := fun q => rfl
      have htg : ∀ q, (s1.waits p ev pt').target q = if q = p then ev else s1.target q := fun q => rfl
      have hpoints : s1.points = s.points := a.points
      have htarget : s1.target = s.target := a.target
      obtain ⟨name, ph, e, k, rfl, hpa⟩ := b1 ev pt' rfl
      refine key _ ?_ ?_ (fun q hq => by show (s1.waits p ev _).points q = _; rw [hpts, if_neg hq, hpoints]) ⟨fun name' g hn => ?_, fun name' e' k' hn => ?_, fun hn => ?_⟩
      · show (s1.waits p ev _).points 2 = _; rw [hpts, if_neg hne.symm, hpoints]; exact h2
      · show (s1.waits p ev _).target 2 = _; rw [htg, if_neg hne.symm, htarget]; exact ht
      · change (s1.waits p ev _).points p = _ at hn; rw [hpts, if_pos rfl] at hn; cases hn
      · change (s1.waits p ev _).points p = _ at hn
        rw [hpts, if_pos rfl] at hn
        cases hn
        exact ⟨ph, hpa⟩
      · change (s1.waits p ev _).points p = _ at hn; rw [hpts, if_pos rfl] at hn; cases hn

/-! ## Process number 2 -/

theorem spins_eq (n : ℕ) (s : Sim) : procSpins n s = ((s.alloc ⟨some (.ok .nothing), false, some []⟩).schedule s.next false 0, .ok (.wait s.next (.procSpin n))) := by
  show SimM.bind (timeout 0) (fun t => (pure (Res.wait t (.procSpin n)) : SimM Res)) s = _
  unfold SimM.bind timeout
  rw [if_neg (lt_irrefl _)]; rfl

theorem spins_known (n : ℕ) (s : Sim) : (((procSpins n s).1.events s.next).value).isSome ∧ (procSpins n s).1.points = s.points := by
  rw [spins_eq]
  refine ⟨?_, rfl⟩
  show ((fset s.events s.next _) s.next).value.isSome
  rw [fset_same]; rfl

/-- Where process number 2 can wait after a cycle. -/
def Waits (s0 s1 : Sim) (r : Except PyErr Res) : Prop :=
  (∀ q pt, s1.points q = some pt → s0.points q = some pt ∨ Modest pt) ∧
  ∀ ev pt, r = .ok (.wait ev pt) → ((∃ n, pt = .procSpin n) ∧ (s1.events ev).value.isSome) ∨ (pt = .procIdle ∧ s1 = s0 ∧ ev = s0.procActivate ∧ ¬ Bears s0.w)

theorem waits_spins (n : ℕ) (s0 s : Sim) (h : ∀ q pt, s.points q = some pt → s0.points q = some pt ∨ Modest pt) : Waits s0 (procSpins n s).1 (procSpins n s).2 := by
  obtain ⟨h1, h2⟩ := spins_known n s
  refine ⟨fun q pt hq => h q pt (by rw [← h2]; exact hq), fun ev pt he => ?_⟩
  rw [spins_eq] at he
  cases he
  exact .inl ⟨⟨n, rfl⟩, h1⟩

theorem waits_loop (hs : s.started = Option.none) (hl : s.procActivate < s.next) : Waits s (procLoop s).1 (procLoop s).2 := by
  have hlist : s.startedList = s.w.procs := by unfold Sim.startedList; rw [hs]; rfl
  by_cases hb : Bears s.w
  · have hany : s.startedList.any (fun x => match x with | .procedural => true | _ => false) = true := by
      rw [hlist]; exact List.any_eq_true.2 ⟨_, hb, rfl⟩
    have hset := moody_setStarted (K := False) (l := fun _ => removeProcedural s.startedList) (fun h => h.elim) s hl
    set s1 := s.setStarted (removeProcedural s.startedList) with hs1
    have hl1 : s1.procActivate < s1.next := by
      have : Mood False s s1 := hset
      rw [this.act]; exact hl.trans_le this.next
    have hall := moody_notifyAll (K := False) s1.startedList s1 hl1
    have heq : procLoop s = SimM.bind (notifyAll s1.startedList) (fun _ => procSpins 4) s1 := by
      exact congrFun (if_pos hany) s
    rw [heq]
    unfold SimM.bind
    have hpts : ∀ s2, Mood False s1 s2 → ∀ q pt, s2.points q = some pt → s.points q = some pt ∨ Modest pt := fun s2 h2 q pt hq => by
      rcases h2.pts q pt hq with h | h
      · exact ((show Mood False s s1 from hset).pts q pt h).imp_right And.right
      · exact .inr h.2
    rcases hn : notifyAll s1.startedList s1 with ⟨s2, y | u⟩
    · rw [hn] at hall
      exact ⟨hpts s2 hall, fun _ _ he => (by cases he)⟩
    · rw [hn] at hall
      exact waits_spins 4 s s2 (hpts s2 hall)
  · have hany : ¬ s.startedList.any (fun x => match x with | .procedural => true | _ => false) = true := by
      rw [hlist]
      intro h
      obtain ⟨x, hx, hx'⟩ := List.any_eq_true.1 h
      cases x with
      | procedural => exact hb hx
      | gen _ _ _ => cases hx'
    have heq : procLoop s = (if s.processed s.procActivate then procSpins 4 else pure (.wait s.procActivate .procIdle) : SimM Res) s := by
      exact congrFun (if_neg hany) s
    rw [heq]
    split
    · exact waits_spins 4 s s fun _ _ h => .inl h
    · refine ⟨fun _ _ h => .inl h, fun ev pt he => ?_⟩
      cases he
      exact .inr ⟨rfl, rfl, rfl, hb⟩

theorem aware_waits {s1 : Sim} {ev : ℕ} {pt : Pt} (hm : ∀ q pt', s1.points q = some pt' → q ≠ 2 → (Cyc pt → q ≠ ev) → Modest pt') (hc : Cyc pt → Child rf (s1.waits 2 ev pt) ev)
    (hi : pt = .procIdle → ev = s1.procActivate ∧ ((s1.events s1.procActivate).value = Option.none → Spoken s1 → Resolved s1))
    (hsp : (pt = .procNew ∨ ∃ n, pt = .procSpin n) → (s1.events ev).value.isSome) : Aware rf (s1.waits 2 ev pt) := by
  have hv : ∀ x, ((s1.waits 2 ev pt).events x).value = (s1.events x).value := fun x => value_addCallback _ _ _ _
  have hpts : ∀ q, (s1.waits 2 ev pt).points q = if q = 2 then some pt else s1.points q := fun q => rfl
  have htg : (s1.waits 2 ev pt).target 2 = ev := rfl
  intro pt' hpt'
  rw [hpts, if_pos rfl] at hpt'
  cases hpt'
  refine ⟨fun q pt' hq hq2 hqc => ?_, fun h => by rw [htg]; exact hc h, fun h => ?_, fun h => by rw [htg, hv]; exact hsp h⟩
  · rw [hpts, if_neg hq2] at hq
    rw [htg] at hqc
    exact hm q pt' hq hq2 hqc
  · rw [htg, hv]; exact hi h

theorem aware_dead (h : s.points 2 = Option.none) : Aware rf s := fun pt hp => by rw [h] at hp; cases hp

/-- After the end of a cycle. -/
theorem aware_loop {s0 s1 : Sim} {r : Except PyErr Res} (hw : Waits s0 s1 r) (hb : Bears s0.w ∨ Resolved s0) (hm : ∀ q pt', s0.points q = some pt' → q ≠ 2 → Modest pt') {ev : ℕ} {pt : Pt}
    (hr : r = .ok (.wait ev pt)) : Aware rf (s1.waits 2 ev pt) := by
  obtain ⟨h1, h2⟩ := hw
  have hm' : ∀ q pt', s1.points q = some pt' → q ≠ 2 → Modest pt' := fun q pt' hq hq2 => (h1 q pt' hq).elim (fun h => hm q pt' h hq2) id
  rcases h2 ev pt hr with ⟨⟨n, rfl⟩, h3⟩ | ⟨rfl, rfl, rfl, h3⟩
  · exact aware_waits (fun q pt' hq hq2 _ => hm' q pt' hq hq2) (fun h => by rcases h with h | h <;> cases h) (fun h => by cases h) fun _ => h3
  · exact aware_waits (fun q pt' hq hq2 _ => hm' q pt' hq hq2) (fun h => by rcases h with h | h <;> cases h) (fun _ => ⟨rfl, fun _ _ => hb.resolve_left h3⟩) (by rintro (h | ⟨n, h⟩) <;> cases h)

/-- A new cycle. -/
theorem aware_cycle {C : Cfg} {pt' : Pt} (h : Run s) (h2 : 2 < s.next) (hm : ∀ q pt', s.points q = some pt' → q ≠ 2 → Modest pt') (hc : Cyc pt') :
    Aware C.ruleFiring ((procCycle C pt' s).1.waits 2 s.next pt') := by
  rw [procCycle_eq]
  set s1 := (process (.localNew procName (genProcedural C s.now)) s).1 with hs1
  have hpts : ∀ q, s1.points q = if q = s.next then some (.localNew procName (genProcedural C s.now)) else s.points q := fun q => rfl
  have hpts2 : ∀ q, q ≠ 2 → (s1.waits 2 s.next pt').points q = s1.points q := fun q hq => by show (if q = 2 then _ else _) = _; rw [if_neg hq]
  have hv : ∀ x, ((s1.waits 2 s.next pt').events x).value = (s1.events x).value := fun x => value_addCallback _ _ _ _
  refine aware_waits (fun q pt'' hq hq2 hqc => ?_) (fun _ => ?_) (fun h => by subst h; rcases hc with h | h <;> cases h) fun h => ?_
  · rw [hpts, if_neg (hqc hc)] at hq
    exact hm q pt'' hq hq2
  · have hne : s.next ≠ 2 := h2.ne'
    have hnew : (s1.waits 2 s.next pt').points s.next = some (.localNew procName (genProcedural C s.now)) := by rw [hpts2 _ hne, hpts, if_pos rfl]
    have htg : (s1.waits 2 s.next pt').target s.next = s.next + 1 := by
      show fset (fset s.target s.next (s.next + 1)) 2 s.next s.next = _
      rw [fset_other _ _ hne, fset_same]
    refine ⟨fun name g hn => ?_, fun name e k hn => ?_, fun hn => ?_⟩
    · rw [hnew] at hn
      cases hn
      rw [htg, hv]
      refine ⟨fun w => phases_procedural C h.2 w, fun en hen he => ?_, ?_, Nat.lt_succ_self _⟩
      · rcases (mem_insertEntry _ _ _).1 hen with rfl | hen
        · exact (add_zero _).le
        · have := h.1.known en hen
          omega
      · show ((fset (fset s.events s.next _) (s.next + 1) _) (s.next + 1)).value.isSome
        rw [fset_same]; rfl
    · rw [hnew] at hn; cases hn
    · rw [hnew] at hn; cases hn
  · rcases h with rfl | ⟨n, rfl⟩ <;> rcases hc with h | h <;> cases h

theorem resume_ok_eq {C : Cfg} {x : Except PyErr SVal} {pt pt' : Pt} {s1 : Sim} {ev : ℕ} (hp : s.points p = some pt) (hc : code C pt x s = (s1, .ok (.wait ev pt'))) :
    s.resume C p x = s1.waits p ev pt' := by rw [resume_eq C hp, hc]

theorem aware_main {C : Cfg} {x : Except PyErr SVal} {pt : Pt} (h : Aware C.ruleFiring s) (hr : Run s) (ht : Tame False s) (hp : s.points 2 = some pt)
    (hx : x = .ok .procs → (s.events (s.target 2)).value = some (.ok .procs)) : Aware C.ruleFiring (s.resume C 2 x) := by
  have hmain := (ht.alive pt hp).1
  have hw := h pt hp
  have hend : ∀ (s1 : Sim) v, Aware C.ruleFiring (s1.ends 2 v) := fun s1 v => aware_dead (by show fset s1.points 2 Option.none 2 = Option.none; exact fset_same _ _ _)
  -- whether there is something to show
  have hgo : (∀ s1 ev pt', code C pt x s = (s1, .ok (.wait ev pt')) → Aware C.ruleFiring (s1.waits 2 ev pt')) → Aware C.ruleFiring (s.resume C 2 x) := fun hgo => by
    rcases hc : code C pt x s with ⟨s1, y | r⟩
    · rw [resume_eq C hp, hc]; exact hend s1 _
    · cases r with
      | done v => rw [resume_eq C hp, hc]; exact hend s1 _
      | wait ev pt' => rw [resume_ok_eq hp hc]; exact hgo s1 ev pt' hc
  refine hgo fun s1 ev pt' hc => ?_
  have hcycle : ∀ pt'', Cyc pt'' → ¬ Cyc pt → code C pt x s = procCycle C pt'' s → Aware C.ruleFiring (s1.waits 2 ev pt') := fun pt'' h1 h2 h3 => by
    rw [h3, procCycle_eq] at hc
    cases hc
    exact aware_cycle hr ht.two (fun q pt' hq hq2 => hw.mods q pt' hq hq2 fun h => absurd h h2) h1
  have hspin : ∀ n, ¬ Cyc pt → code C pt x s = procSpins n s → Aware C.ruleFiring (s1.waits 2 ev pt') := fun n h2 h3 => by
    have := waits_spins n s s fun _ _ h => .inl h
    rw [← h3, hc] at this
    obtain ⟨k1, k2⟩ := this
    rw [h3, spins_eq] at hc
    have hpt : pt' = .procSpin n := by cases hc; rfl
    subst hpt
    refine aware_waits (fun q pt'' hq hq2 _ => (k1 q pt'' hq).elim (fun h => hw.mods q pt'' h hq2 fun h => absurd h h2) id) (fun h => by rcases h with h | h <;> cases h) (fun h => by cases h) fun _ => ?_
    rcases k2 ev _ rfl with h | h
    · exact h.2
    · cases h.1
  have hafter : ∀ s0 : Sim, Cyc pt → x = .ok .procs → code C pt x s = procLoop s0 → s0.started = Option.none → s0.procActivate < s0.next → s0.points = s.points → s0.w = s.w → s0.trace = s.trace → s0.now = s.now →
      Aware C.ruleFiring (s1.waits 2 ev pt') := fun s0 hcy hxp hcode hst hl hpo hww htr hn => by
    have hv := hx hxp
    have hch := hw.child hcy
    have hnone : s.points (s.target 2) = Option.none := by
      by_contra hne
      rw [hr.1.live _ (Option.isSome_iff_ne_none.2 hne)] at hv
      cases hv
    have hb := hch.over hnone hv
    have := waits_loop hst hl
    rw [← hcode, hc] at this
    refine aware_loop this ?_ (fun q pt' hq hq2 => ?_) rfl
    · rw [hww]
      refine hb.imp_right fun ⟨y, h1, h2, h3⟩ => ⟨y, by rw [htr]; exact h1, by rw [hn]; exact h2, h3⟩
    · rw [hpo] at hq
      exact hw.mods q pt' hq hq2 fun _ hqt => by rw [hqt, hnone] at hq; cases hq
  rcases x with y | v
  · have : code C pt (.error y) s = SimM.throw y s := by cases pt <;> first | rfl | cases hmain
    rw [this] at hc; cases hc
  · have hreturn : ∀ f : Unit → SimM Res, Cyc pt → code C pt (.ok v) = (procsReturned v >>= f) → v = .procs ∧ code C pt (.ok v) s = f () { s with started := Option.none } := fun f _ hf => by
      cases v with
      | procs => exact ⟨rfl, by rw [hf]; rfl⟩
      | cont d => rw [hf] at hc; cases hc
      | nothing => rw [hf] at hc; cases hc
    cases pt with
    | procNew => exact hcycle .procFirst (.inl rfl) (by rintro (h | h) <;> cases h) rfl
    | procFirst =>
      obtain ⟨rfl, h1⟩ := hreturn _ (.inl rfl) rfl
      exact hafter _ (.inl rfl) rfl h1 rfl ht.proc.1.1 rfl rfl rfl rfl
    | procIdle => exact hspin 4 (by rintro (h | h) <;> cases h) rfl
    | procSpin n =>
      cases n with
      | zero => exact hcycle .procAgain (.inr rfl) (by rintro (h | h) <;> cases h) rfl
      | succ n => exact hspin n (by rintro (h | h) <;> cases h) rfl
    | procAgain =>
      obtain ⟨rfl, h1⟩ := hreturn _ (.inr rfl) rfl
      exact hafter { (s.alloc ⟨Option.none, false, some []⟩) with started := Option.none, procActivate := s.next } (.inr rfl) rfl h1 rfl (Nat.lt_succ_self _) rfl rfl rfl rfl
    | _ => cases hmain

/-! ## Callbacks -/

/-- A process goes on. -/
theorem aware_resume {C : Cfg} {x : Except PyErr SVal} {pt : Pt} (h : Aware C.ruleFiring s) (hr : Run s) (hk : Cycling C.ruleFiring s) (ht : Tame False s) (hp : s.points p = some pt) (hl : Loose s p)
    (hd : ∀ t v, pt.due = some t → x = .ok v → t = s.now) (hx : x = .ok .procs → (s.events (s.target p)).value = some (.ok .procs)) : Aware C.ruleFiring (s.resume C p x) := by
  by_cases h2 : p = 2
  · subst h2; exact aware_main h hr ht hp hx
  obtain ⟨_, ho, _⟩ := resume_run hr hk hp hl hd hx
  have hlt := points_lt hr.1 hp
  obtain ⟨st, c, hc⟩ := hk
  cases hp2 : s.points 2 with
  | none => exact aware_dead (by rw [ho.points 2 ht.two (Ne.symm h2)]; exact hp2)
  | some pt2 =>
    by_cases hpc : p = c
    · subst hpc
      have hleg := hc.child pt hp
      rcases hc.main pt2 hp2 with ⟨hcy, htg⟩ | ⟨_, _, hn⟩
      · refine aware_child h hp2 hcy htg h2 hp ?_ hd
        cases pt <;> first | exact hleg.elim | exact ⟨_, .inl ⟨_, rfl⟩⟩ | exact ⟨_, .inr ⟨_, _, rfl⟩⟩
      · rw [hn] at hp; cases hp
    · have hnt : ∀ pt, s.points 2 = some pt → Cyc pt → p ≠ s.target 2 := fun pt' h' hcy => by
        rw [hp2] at h'; cases h'
        rcases hc.main pt2 hp2 with ⟨_, htg⟩ | ⟨hre, _, _⟩
        · rw [htg]; exact hpc
        · rcases hcy with rfl | rfl <;> rcases hre with hre | hre <;> cases hre
      exact aware_outer h ht (outer_code hr ht hp (hc.mods p pt hp hpc) ((h pt2 hp2).mods p pt hp h2 fun hcy => hnt pt2 hp2 hcy) hd h2 ho) h2 hnt

theorem aware_quiet (h : Aware rf s) (ht : Tame False s) (hs : Outer s.next s s') : Aware rf s' :=
  aware_outer h ht hs ht.two.ne' fun pt hp _ => ((ht.alive pt hp).2.2.1.1).ne'

theorem aware_callback (C : Cfg) {ev : ℕ} {v : Except PyErr SVal} {cb : Callback} {l : List Callback} (h : Aware C.ruleFiring s) (hg : Good C.ruleFiring s) (ht : Tame False s) (hev : ev ≠ 2)
    (hp : Pending ev v (cb :: l) s) : Aware C.ruleFiring (callback C ev v s cb) := by
  have hi := hg.1.1
  have hdef : Aware C.ruleFiring (s.defuse ev) := aware_quiet h ht (outer_thin thin_defuse (others_thin thin_defuse rfl rfl stops_defuse) rfl rfl rfl rfl)
  have hdrop : ∀ {s : Sim}, Aware C.ruleFiring s → Tame False s → ∀ (a : ℕ) (d : Callback), d.fixed = false → d ≠ .stop → Aware C.ruleFiring (s.dropCallback a d) := fun h ht a d hf hd =>
    aware_quiet h ht (outer_thin (thin_drop hd) (others_thin (thin_drop hd) rfl rfl (stops_drop hf)) rfl rfl rfl rfl)
  cases cb with
  | resume p =>
    obtain ⟨hl, htg, pt, hpt, hd⟩ := hp.res p (.head _)
    rcases v with x | v
    · have hgd := good_defuse (ev := ev) hg
      exact aware_resume (x := .error x) hdef hgd.1 hgd.2 (tame_defuse ht hev) (pt := pt) hpt (fun y hy => hl y ((thin_defuse (s := s) (ev := ev)).sub y |>.subset hy)) (by simp) (by simp)
    · exact aware_resume (x := .ok v) h hg.1 hg.2 ht hpt hl (fun t u htt _ => hd t htt) fun hx => by rw [htg]; rw [← hx]; exact hp.val hx
  | interrupt p =>
    obtain ⟨rfl, hno⟩ := hp.intr p (.head _)
    simp only [callback]
    split
    · exact h
    · have hgd := good_drop (ev := s.target p) (cb := .resume p) (by simp) hg
      have hth : Thin s (s.dropCallback (s.target p) (.resume p)) := thin_drop (by simp)
      have hloose : Loose (s.dropCallback (s.target p) (.resume p)) p := by
        intro x hx
        by_cases he : x = s.target p
        · subst he
          rw [cbs_drop] at hx
          have h1 := List.count_pos_iff.2 hx
          rw [List.count_erase_self] at h1
          have := hi.once (s.target p) p
          omega
        · exact he (hi.res x p ((hth.sub x).subset hx)).1.symm
      have hd := hdrop h ht (s.target p) (.resume p) rfl (by simp)
      cases hpt : s.points p with
      | none =>
        have : (s.dropCallback (s.target p) (.resume p)).resume C p (.error .interrupt) = s.dropCallback (s.target p) (.resume p) := by
          unfold Sim.resume
          have : (s.dropCallback (s.target p) (.resume p)).points p = Option.none := hpt
          rw [this]
        rw [this]; exact hd
      | some pt => exact aware_resume (x := .error .interrupt) hd hgd.1 hgd.2 (tame_drop ht) (pt := pt) hpt hloose (by simp) (by simp)
  | check d =>
    have hq := hp.chk d (.head _)
    simp only [callback]
    by_cases htr : s.triggered d = true
    · rw [if_pos htr]; exact h
    · rw [if_neg htr]
      rcases v with x | v
      · have hgd := good_defuse (ev := ev) hg
        have hth : Thin s (s.defuse ev) := thin_defuse
        have ht' : (s.defuse ev).triggered d = false := by
          unfold Sim.triggered at *; rw [hth.value]; simpa using htr
        exact aware_quiet hdef (tame_defuse ht hev) (outer_trigger (good_trigger (v := .error x) hgd ht' (thin_quiet hth hq) (by simp)).2 (by simp))
      · exact aware_quiet h ht (outer_trigger (good_trigger (v := .ok .nothing) hg (by simpa using htr) hq (by simp)).2 (by simp))
  | build d a b => exact hdrop (hdrop h ht a (.check d) rfl (by simp)) (tame_drop ht) b (.check d) rfl (by simp)
  | stop => exact h

theorem aware_callbacks (C : Cfg) {ev : ℕ} {v : Except PyErr SVal} : ∀ (l : List Callback) {s : Sim}, Aware C.ruleFiring s → Good C.ruleFiring s → Tame False s → (l ≠ [] → ev ≠ 2) → (∀ c, .check c ∈ l → Other s c) →
    Pending ev v l s → Aware C.ruleFiring (l.foldl (callback C ev v) s)
  | [], _, h, _, _, _, _, _ => h
  | cb :: l, s, h, hg, ht, hev, hc, hp => by
    obtain ⟨a, b, _⟩ := good_callback C hg hp
    obtain ⟨t1, t2⟩ := tame_callback C (ev := ev) (v := v) (cb := cb) ht (hev (by simp)) fun c hc' => hc c (by rw [← hc']; exact .head _)
    exact aware_callbacks C l (aware_callback C h hg ht (hev (by simp)) hp) a t1 (fun _ => hev (by simp)) (fun c hm => ⟨(hc c (.tail _ hm)).1.trans_le t2, (hc c (.tail _ hm)).2⟩) b

/-! ## Time passes -/

theorem aware_same {K : Prop} (h : Aware rf s) (ht : Tame K s) (hp : s'.points = s.points) (htg : s'.target = s.target) (ha : s'.procActivate = s.procActivate) (htr : s'.trace = s.trace)
    (hn : s'.now = s.now) (hw : s'.w.procs = s.w.procs) (hx : s.next ≤ s'.next) (hv : ∀ ev < s.next, (s'.events ev).value = (s.events ev).value) (hq : ∀ a < s.next, Prompt s a → Prompt s' a) :
    Aware rf s' := by
  intro pt hpt
  rw [hp] at hpt
  have hw' := h pt hpt
  have hlt := (ht.alive pt hpt).2.2.1.1
  refine ⟨fun q pt' hq hq2 hqc => hw'.mods q pt' (by rw [← hp]; exact hq) hq2 (by rw [← htg]; exact hqc), fun hcy => ?_, fun hi => ?_, fun hs => ?_⟩
  · rw [htg]
    have hc := hw'.child hcy
    refine ⟨fun name g hm => ?_, fun name e k hm => ?_, fun hm hvm => ?_⟩
    · rw [hp] at hm
      obtain ⟨h1, h2, h3, h4⟩ := hc.new name g hm
      rw [hn, htg, hv _ h4]
      exact ⟨h1, hq _ h4 h2, h3, h4.trans_le hx⟩
    · rw [hp] at hm
      obtain ⟨ph, h1, ph', h2, h3, h4⟩ := hc.wait name e k hm
      exact ⟨ph, at_outer (by rw [htr]) hn (by rw [htr]) h1, ph', h2, h3.imp_right (keep_procs hw), h4⟩
    · rw [hp] at hm
      rw [hv _ hlt] at hvm
      exact (hc.over hm hvm).imp (keep_procs hw) (resolved_outer (by rw [htr]) hn)
  · obtain ⟨h1, h2⟩ := hw'.idle hi
    rw [htg, ha, hv _ ht.proc.1.1]
    refine ⟨h1, fun h3 h4 => resolved_outer (by rw [htr]) hn (h2 h3 ?_)⟩
    obtain ⟨x, a1, a2, a3⟩ := h4
    exact ⟨x, by rw [← htr]; exact a1, by rw [← hn]; exact a2, a3⟩
  · rw [htg, hv _ hlt]; exact hw'.spin hs

/-- When nothing more is to happen at this time, process number 2 waits for a module, or a rule is under way. -/
theorem stuck (h : Aware rf s) (hf : Fine rf s) (ha : Awake (fun _ => False) s) (ht : Tame False s) (hq : ∀ en ∈ s.queue, s.now < en.time) :
    ∃ pt, s.points 2 = some pt ∧ ((pt = .procIdle ∧ (s.events s.procActivate).value = Option.none) ∨
      (Cyc pt ∧ ∃ name e k ph, s.points (s.target 2) = some (.localWait name e k) ∧ Paused rf s ph e k ∧ ((∃ t, ph = .sel t) ∨ ph = .acts))) := by
  obtain ⟨hi, st, c, hr⟩ := hf
  cases h2 : s.points 2 with
  | none =>
    obtain ⟨x, l, h1, rfl | ⟨h, _⟩⟩ := ht.dead h2
    · obtain ⟨en, hen, he⟩ := ha.queued 2 (by rw [h1]; rfl) (by rw [h1]; rfl)
      exact absurd (ht.self en hen he) (not_le.2 (hq en hen))
    · exact h.elim
  | some pt =>
    refine ⟨pt, rfl, ?_⟩
    have hw := h pt h2
    have hno : ∀ p pt, s.points p = some pt → Prompt s (s.target p) → ¬ (s.events (s.target p)).value.isSome := fun p pt hp hpr hv => by
      obtain ⟨en, hen, he⟩ := ha.queued _ hv (open_of_mem (ha.woken p pt hp id))
      exact absurd (hpr en hen he) (not_le.2 (hq en hen))
    have hno2 := hno 2 pt h2 (ht.alive pt h2).2.2.2
    by_cases hcy : Cyc pt
    · right
      refine ⟨hcy, ?_⟩
      have hch := hw.child hcy
      have htc : s.target 2 = c := by
        rcases hr.main pt h2 with ⟨_, htg⟩ | ⟨hre, _, _⟩
        · exact htg
        · rcases hcy with rfl | rfl <;> rcases hre with hre | hre <;> cases hre
      cases hc : s.points (s.target 2) with
      | none =>
        refine absurd ?_ hno2
        rw [htc] at hc ⊢
        exact hr.over pt h2 hcy hc
      | some pt' =>
        have hleg := hr.child pt' (by rw [← htc]; exact hc)
        cases pt' with
        | localNew name g =>
          obtain ⟨_, h3, h4, _⟩ := hch.new name g hc
          exact absurd h4 (hno _ _ hc h3)
        | localWait name e k =>
          obtain ⟨ph, hpa⟩ := hch.wait name e k hc
          refine ⟨name, e, k, ph, rfl, hpa, ?_⟩
          obtain ⟨_, _, _, en, hen, _, _, he⟩ := waits_for hi ha hc rfl
          have hlate : s.now < e.time := by rw [← he]; exact hq en hen
          obtain ⟨h3, ph', h4, _⟩ := hpa
          cases ph with
          | start t => rw [h4.1, show t = s.now from h3] at hlate; exact absurd hlate (lt_irrefl _)
          | conf t => rw [h4.1, h3.1] at hlate; exact absurd hlate (lt_irrefl _)
          | none => exact h4.elim
          | sel t => exact .inl ⟨t, rfl⟩
          | late u => rw [h4.1, show u = s.now from h3] at hlate; exact absurd hlate (lt_irrefl _)
          | acts => exact .inr rfl
        | _ => exact hleg.elim
    · left
      have hm := (ht.alive pt h2).1
      cases pt with
      | procIdle =>
        obtain ⟨h3, _⟩ := hw.idle rfl
        refine ⟨rfl, ?_⟩
        rw [h3] at hno2
        simpa using hno2
      | procNew => exact absurd (hw.spin (.inl rfl)) hno2
      | procSpin n => exact absurd (hw.spin (.inr ⟨n, rfl⟩)) hno2
      | procFirst => exact absurd (.inl rfl) hcy
      | procAgain => exact absurd (.inr rfl) hcy
      | _ => cases hm

/-- The clock goes on. -/
theorem aware_taken {en : Entry} {q : List Entry} (h : Aware rf s) (hf : Fine rf s) (ha : Awake (fun _ => False) s) (ht : Tame False s) (hq : s.queue = en :: q) : Aware rf (s.taken en q) := by
  have hth := thin_taken s en q
  have hen : en ∈ s.queue := by rw [hq]; exact .head _
  rcases (hf.1.ahead en hen).eq_or_lt with hnow | hlt
  · exact aware_same h ht rfl rfl rfl rfl hnow.symm rfl le_rfl (fun ev _ => hth.value ev) fun a _ hp x hx he => (hp x (by rw [hq]; exact .tail _ hx) he).trans hnow.le
  · have hall : ∀ x ∈ s.queue, s.now < x.time := fun x hx => by
      rw [hq] at hx
      rcases List.mem_cons.1 hx with rfl | hx
      · exact hlt
      · have := hf.1.sorted
        rw [hq] at this
        exact hlt.trans_le (upTo_le ((List.pairwise_cons.1 this).1 x hx))
    obtain ⟨pt, h2, hcase⟩ := stuck h hf ha ht hall
    have hw := h pt h2
    intro pt' h2'
    have h2' : s.points 2 = some pt' := h2'
    rw [h2] at h2'; cases h2'
    rcases hcase with ⟨rfl, hv⟩ | ⟨hcy, name, e, k, ph, hc, hpa, hph⟩
    · refine ⟨hw.mods, (fun h => by rcases h with h | h <;> cases h), fun hi => ⟨(hw.idle rfl).1, fun _ hs => ?_⟩, by rintro (h | ⟨n, h⟩) <;> cases h⟩
      obtain ⟨x, a1, a2, _⟩ := hs
      have h3 := hf.1.trace x a1
      have h4 : x.1 = en.time := a2
      rw [← h3.1, h4] at h3
      exact absurd h3.2.2 (not_le.2 hlt)
    · refine ⟨hw.mods, fun _ => ⟨fun name' g hm => ?_, fun name' e' k' hm => ?_, fun hm => ?_⟩, (fun hi => by subst hi; rcases hcy with h | h <;> cases h), (fun hs => by rcases hcy with rfl | rfl <;> rcases hs with h | ⟨n, h⟩ <;> cases h)⟩
      · have hm : s.points (s.target 2) = _ := hm
        rw [hc] at hm; cases hm
      · have hm : s.points (s.target 2) = _ := hm
        rw [hc] at hm; cases hm
        refine ⟨ph, ?_, hpa.2⟩
        rcases hph with ⟨t, rfl⟩ | rfl <;> exact hpa.1
      · have hm : s.points (s.target 2) = _ := hm
        rw [hc] at hm; cases hm

theorem aware_called {C : Cfg} {en : Entry} {q : List Entry} (h : Aware C.ruleFiring s) (hf : Fine C.ruleFiring s) (ha : Awake (fun _ => False) s) (ht : Tame False s) (hq : s.queue = en :: q)
    (hk : en.ev ≠ 2) (hstop : .stop ∉ s.cbs en.ev) : Aware C.ruleFiring (s.called C en q) := by
  have hf' := fine_taken hf hq
  have h' := aware_taken h hf ha ht hq
  unfold Sim.called
  rcases hf.1.grid en (by rw [hq]; exact .head _) with hg | hg
  · exact aware_callbacks C (s.cbs en.ev) h' ⟨⟨hf'.1, hg⟩, hf'.2⟩ (tame_taken ht hf.1 hq fun he => hk he) (fun _ => hk) (fun c hc => ht.safe _ _ hc) (pending_taken hf.1 hq)
  · have : s.cbs en.ev = [] := by
      have := hg.resolve_left hstop
      simp [Sim.cbs, this]
    rw [this]; exact h'

/-! ## All states -/

theorem moody_initExtra {K : Prop} : ∀ l : List String, Moody K (initExtra l)
  | [] => moody_pure
  | n :: r => by
    unfold initExtra
    split
    · exact moody_initExtra r
    · refine moody_bind (moody_process (pt := .extraNew n) trivial) fun p => moody_bind moody_newEvent fun a => moody_bind ?_ fun _ => moody_initExtra r
      exact fun s _ => mood_same rfl rfl rfl rfl rfl fun _ => keep_refl _

theorem aware_init (w : Mach) (args : Option EnvArgs) (t : ℚ) : Aware rf (Sim.init w args t) := by
  set m : SimM Unit := (do
    initExtra (w.bufs.map Prod.fst)
    if w.env.isSome then do
      let _ ← process .envNew
      pure ()
    else pure ()) with hm
  set s0 := (process .procNew (Sim.blank w args t)).1 with hs0
  have heq : Sim.init w args t = (m s0).1 := rfl
  have hg : Grows s0 (m s0).1 := by
    have : Tames False m s0 (fun _ _ => True) := by
      refine tames_bind (tames_initExtra _ (tame_start w args t)) fun _ s2 h2 _ _ => ?_
      split
      · exact tames_bind (tames_process h2 rfl trivial) fun _ s3 h3 _ _ => tames_pure h3 trivial
      · exact tames_pure h2 trivial
    exact this.2.1
  have hmood : Mood True s0 (m s0).1 := by
    have : Moody True m := by
      refine moody_bind (moody_initExtra _) fun _ => ?_
      split
      · exact moody_bind (moody_process (pt := .envNew) trivial) fun _ => moody_pure
      · exact moody_pure
    exact this s0 (by show 0 < 4; omega)
  have hpts : ∀ q, s0.points q = if q = 2 then some .procNew else Option.none := fun q => rfl
  rw [heq]
  intro pt hpt
  rw [hg.points 2 (by show 2 < 4; omega), hpts, if_pos rfl] at hpt
  cases hpt
  refine ⟨fun q pt' hq hq2 _ => ?_, (fun h => by rcases h with h | h <;> cases h), (fun h => by cases h), fun _ => ?_⟩
  · rcases hmood.pts q pt' hq with h | h
    · rw [hpts, if_neg hq2] at h; cases h
    · exact h.2
  · rw [hg.target 2 (by show 2 < 4; omega)]
    exact hmood.known 3 (by show 3 < 4; omega) rfl

variable {C : Cfg} {w : Mach} {args : Option EnvArgs} {t0 : ℚ}

theorem aware_unraised (h : Unraised C w args t0 s) : Aware C.ruleFiring s := by
  induction h with
  | init => exact aware_init w args t0
  | @stop s1 q hu ih =>
    have ht := tame_unraised hu
    unfold Sim.setStop
    split
    · exact ih
    · refine aware_same ih ht rfl rfl rfl rfl rfl rfl (Nat.le_succ _) (fun ev hev => ?_) fun a ha hp en hen he => ?_
      · show (fset s1.events s1.next _ ev).value = _
        rw [fset_other _ _ hev.ne]
      · rcases (mem_insertEntry _ _ _).1 hen with rfl | hen
        · exact absurd he ha.ne'
        · exact hp en hen he
  | @step s1 s2 hu hs ih =>
    have hr := reachable_unraised hu
    have hf := fine_reachable hr
    have ht := tame_unraised hu
    rcases step_cases hs with ⟨h, _⟩ | ⟨en, q, hq, ⟨_, h⟩ | ⟨hstop, h | ⟨_, h⟩⟩⟩ <;> cases h
    exact aware_called ih hf (awake_reachable hr) ht hq (fun he => by obtain ⟨_, _, hx⟩ := step_two (C := C) ht hf.1 hq he; rw [hx] at hs; cases hs) hstop
  | @stopped s1 s2 hu hs ih =>
    have hr := reachable_unraised hu
    rcases step_cases hs with ⟨h, _⟩ | ⟨en, q, hq, ⟨_, h⟩ | ⟨hstop, h | ⟨_, h⟩⟩⟩ <;> cases h
    exact aware_taken ih (fine_reachable hr) (awake_reachable hr) (tame_unraised hu) hq
  | @compile s1 hu ih =>
    have hc : (compileIn C s1.w).1.procs = s1.w.procs := by
      unfold compileIn
      split
      · dsimp only
        split <;> rfl
      · rfl
    unfold compileAtEnd
    split
    · rcases hci : compileIn C s1.w with ⟨w', x | o⟩ <;> rw [hci] at hc <;> exact aware_same ih (tame_unraised hu) rfl rfl rfl rfl rfl hc le_rfl (fun _ _ => rfl) fun _ _ h => h
    · exact ih

/-- When nothing more is to happen at this time, rules have been tried after all reports, or one is under way. -/
theorem heeded_now (h : Unraised C w args t0 s) (hq : ∀ en ∈ s.queue, s.now < en.time) : Heeded s.trace s.now := by
  have hr := reachable_unraised h
  have ha := aware_unraised h
  obtain ⟨pt, h2, ⟨rfl, hv⟩ | ⟨hcy, name, e, k, ph, _, hpa, hph⟩⟩ := stuck ha (fine_reachable hr) (awake_reachable hr) (tame_unraised h) hq
  · exact fun hs => .inl (((ha _ h2).idle rfl).2 hv hs)
  · refine fun _ => .inr ?_
    rcases hph with ⟨t, rfl⟩ | rfl
    · obtain ⟨r, u, n, h3⟩ := hpa.1; exact ⟨r, u, n, .inl h3⟩
    · obtain ⟨r, u, n, h3⟩ := hpa.1; exact ⟨r, u, n, .inr h3⟩

theorem heeded_before (h : Unraised C w args t0 s) : ∀ t < s.now, Heeded (s.trace.filter (·.1 ≤ t)) t := by
  have step : ∀ {s s' : Sim}, Unraised C w args t0 s → (s.step C = .ok s' ∨ s.step C = .stopped s') → (∀ t < s.now, Heeded (s.trace.filter (·.1 ≤ t)) t) →
      ∀ t < s'.now, Heeded (s'.trace.filter (·.1 ≤ t)) t := by
    intro s s' hu hs ih t ht
    have hr := reachable_unraised hu
    have hf := fine_reachable hr
    have hone : OneMore s s' := by
      obtain ⟨h1, h2, _⟩ := apart_step hf (apart_reachable hr)
      rcases hs with hs | hs
      · exact (h1 _ hs).2
      · exact (h2 _ hs).2
    have hnow : ∃ en q, s.queue = en :: q ∧ s'.now = en.time := by
      rcases hs with hs | hs
      · rcases step_cases hs with ⟨h, _⟩ | ⟨en, q, hq, ⟨_, h⟩ | ⟨hstop, h | ⟨_, h⟩⟩⟩ <;> cases h
        exact ⟨en, q, hq, (fine_called C hf hq hstop).2.now⟩
      · rcases step_cases hs with ⟨h, _⟩ | ⟨en, q, hq, ⟨_, h⟩ | ⟨hstop, h | ⟨_, h⟩⟩⟩ <;> cases h
        exact ⟨en, q, hq, rfl⟩
    have hsame : s'.trace.filter (·.1 ≤ t) = s.trace.filter (·.1 ≤ t) := by
      rcases hone with h1 | ⟨e, _, h1⟩
      · rw [h1]
      · rw [h1, List.filter_append]
        simp [ht]
    rw [hsame]
    by_cases hlt : t < s.now
    · exact ih t hlt
    · have hle := not_lt.1 hlt
      have hall : s.trace.filter (·.1 ≤ t) = s.trace := by
        refine List.filter_eq_self.2 fun x hx => ?_
        have := hf.1.trace x hx
        simpa using (this.1.le.trans this.2.2).trans hle
      rw [hall]
      rcases hle.eq_or_lt with rfl | hgt
      · obtain ⟨en, q, hq, hn⟩ := hnow
        refine heeded_now hu fun x hx => ?_
        rw [hn] at ht
        have hsrt := hf.1.sorted
        rw [hq] at hsrt hx
        rcases List.mem_cons.1 hx with rfl | hx
        · exact ht
        · exact ht.trans_le (upTo_le ((List.pairwise_cons.1 hsrt).1 x hx))
      · rintro ⟨x, hx, h1, _⟩
        have := hf.1.trace x hx
        rw [← this.1, h1] at this
        exact absurd this.2.2 (not_le.2 hgt)
  induction h with
  | init =>
    intro t _
    rw [(apart_init w args t0).2]
    rintro ⟨x, hx, _⟩
    cases hx
  | stop q _ ih =>
    have : ∀ s : Sim, (s.setStop q).1.trace = s.trace ∧ (s.setStop q).1.now = s.now := fun s => by unfold Sim.setStop; split <;> exact ⟨rfl, rfl⟩
    rw [(this _).1, (this _).2]
    exact ih
  | step hu hs ih => exact step hu (.inl hs) ih
  | stopped hu hs ih => exact step hu (.inr hs) ih
  | @compile s1 _ ih =>
    have : (compileAtEnd C s1).1.trace = s1.trace ∧ (compileAtEnd C s1).1.now = s1.now := by
      unfold compileAtEnd
      split
      · split <;> exact ⟨rfl, rfl⟩
      · exact ⟨rfl, rfl⟩
    rw [this.1, this.2]
    exact ih

/-- At the end there is no rule under way. -/
theorem heeded_end (h : Unraised C w args t0 s) (hq : s.queue = []) (hs : Spoken s) : Resolved s := by
  have hr := reachable_unraised h
  have ha := aware_unraised h
  have haw := awake_reachable hr
  obtain ⟨pt, h2, ⟨rfl, hv⟩ | ⟨hcy, name, e, k, ph, hc, _, _⟩⟩ := stuck ha (fine_reachable hr) haw (tame_unraised h) (by rw [hq]; simp)
  · exact ((ha _ h2).idle rfl).2 hv hs
  · obtain ⟨_, _, _, en, hen, _⟩ := waits_for (fine_reachable hr).1 haw hc rfl
    rw [hq] at hen; cases hen

end Verif
