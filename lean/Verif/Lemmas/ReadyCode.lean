import Verif.Lemmas.Ready
/-! # Modules and their interruptions: what processes do -/
namespace Verif
open Verif.Spec

variable {D : String → ℕ} {X : ℕ → Prop} {s s' : Sim} {p e : ℕ} {A B : Type}

/-- How a process goes on, which was at some place before. -/
def ReadyRes (e : ℕ) (pt : Pt) (s : Sim) (r : Res) : Prop := ∀ ev pt', r = .wait ev pt' → PoisedRes e pt s ev pt'

theorem readyRes_done {pt : Pt} {v : SVal} : ReadyRes e pt s (.done v) := fun ev pt' h => by cases h

/-- Waiting for a new event. -/
theorem readyRes_new {pt pt' : Pt} {ev : ℕ} (hf : Unheeded s ev) (ho : pt'.isNew = false) (hm : pt'.module = pt.module) (hh : pt.helper = true → pt'.helper = true)
    (hr : ∀ q, pt'.ref = some q → Helps s q) (hg : pt'.gains) (hi : ∀ n, pt' ≠ .extraIdle n)
    (hb : ∀ n, pt'.working = some n → (∃ a, alook n s.activate = some a ∧ s.triggered a = true) ∧ s.strikes e ≤ orders n s.startedList) : ReadyRes e pt s (.wait ev pt') := fun ev' pt'' he => by
  cases he
  exact ⟨hf.plain.1, hf.free, hf.plain.2.1, hf.plain.2.2, ho, ⟨hm, hh⟩, hr, hg, fun n hn => absurd hn (hf.act n), fun hp => absurd hp hf.proc, fun n hn => absurd hn (hi n), hb⟩

theorem startedList_setStarted (s : Sim) (l : List PItem) : (s.setStarted l).startedList = l := by
  unfold Sim.setStarted Sim.startedList
  cases h : s.started <;> simp

theorem aside_setStarted (s : Sim) (l : List PItem) : Aside s (s.setStarted l) := by
  unfold Sim.setStarted
  cases s.started <;> exact ⟨rfl, rfl, rfl, rfl, rfl, rfl, rfl, rfl, rfl, rfl⟩

theorem strikes_aside (h : Aside s s') (p : ℕ) : s'.strikes p = s.strikes p :=
  strikes_congr h.2.2.2.2.2.1 fun en _ => by unfold Sim.cbs; rw [h.2.2.2.2.1]

theorem orders_w {w : Mach} (hg : Gains s.w w) (n : String) : orders n s.startedList ≤ orders n (Sim.startedList { s with w := w }) := by
  show orders n (s.started.getD s.w.procs) ≤ orders n (s.started.getD w.procs)
  cases s.started
  · exact gains_orders hg n
  · exact le_rfl

theorem ready_w {w : Mach} {a : Option EnvArgs} (h : Ready D X s) (hg : Gains s.w w) : Ready D X { s with w := w, envArgs := a } :=
  ready_aside h ⟨rfl, rfl, rfl, rfl, rfl, rfl, rfl, rfl, rfl, rfl⟩ fun _ _ n _ _ _ hb => hb.trans (orders_w hg n)

theorem readies_w {f : Mach → Mach} (h : Ready (fun _ => 0) X s) (hg : Gains s.w (f s.w)) : Readies X (SimM.set (fun s => { s with w := f s.w })) s (fun s' _ => s' = { s with w := f s.w }) :=
  ⟨ready_w h hg, pace_aside ⟨rfl, rfl, rfl, rfl, rfl, rfl, rfl, rfl, rfl, rfl⟩, fun _ _ => rfl⟩

theorem readies_quiet {f : Sim → Sim} (h : Ready (fun _ => 0) X s) (ha : Aside s (f s)) (hl : (f s).startedList = s.startedList) : Readies X (SimM.set f) s (fun s' _ => s' = f s) :=
  ⟨ready_aside (s' := f s) h ha (fun _ _ n _ _ _ hb => by rw [hl]; exact hb), pace_aside ha, fun _ _ => rfl⟩

theorem readies_activateProc {ev : Verif.Ev} (h : Ready (fun _ => 0) X s) : Readies X (activateProc ev) s (fun _ _ => True) := by
  rcases activateProc_cases ev with he | he <;> rw [he]
  · exact readies_pure h trivial
  · have : Readies X (succeed s.procActivate) s (fun _ _ => True) := does_mono (readies_succeed h h.placed.proc.1) fun _ _ _ _ _ => trivial
    unfold Readies Does at this ⊢
    dsimp only
    split
    · exact ⟨h, pace_refl _, fun _ _ => trivial⟩
    · exact this

theorem readies_print {ev : Verif.Ev} (h : Ready (fun _ => 0) X s) : Readies X (printEvent ev) s (fun _ _ => True) := by
  rcases printEvent_cases ev with ⟨_, he⟩ | ⟨_, he⟩ <;> rw [he]
  · exact readies_pure h trivial
  · exact does_mono (readies_quiet h ⟨rfl, rfl, rfl, rfl, rfl, rfl, rfl, rfl, rfl, rfl⟩ rfl) fun _ _ _ _ _ => trivial

theorem readies_env (h : Ready (fun _ => 0) X s) : Readies X envInteraction s (fun _ _ => True) := by
  have hf : ∀ {t : Sim}, Ready (fun _ => 0) X t → Readies X (SimM.set (fun s => { s with w := { s.w with interaction := [] } })) t (fun _ _ => True) := fun ht =>
    does_mono (readies_w (f := fun w => { w with interaction := [] }) ht (gains_procs rfl)) fun _ _ _ _ _ => trivial
  unfold Readies Does envInteraction
  cases s.w.env with
  | none => exact ⟨h, pace_refl _, fun _ _ => trivial⟩
  | some env =>
    dsimp only
    split
    · exact readies_bind (m := succeed s.envActivate) (readies_succeed h h.placed.env.1) fun _ s1 h1 _ _ => hf h1
    · exact hf h

theorem readies_localRun {name : String} {o : Out Mach YV Unit} {pt : Pt} (h : Ready (fun _ => 0) X s) (ho : o.Moves Gains s.w) (hm : pt.module = Option.none) : Readies X (localRun name o) s (ReadyRes e pt) := by
  have hw : ∀ w, Gains s.w w → Readies X (SimM.set (fun s => { s with w := w })) s (fun s' _ => s' = { s with w := w }) := fun w hw => readies_w (f := fun _ => w) h hw
  cases o with
  | yield w y k =>
    cases y with
    | ev ev =>
      exact readies_bind (hw w ho.1) fun _ s1 h1 _ _ => readies_bind (readies_get h1) fun now s2 h2 _ _ => readies_bind (readies_timeout h2) fun t s3 h3 _ hf =>
        readies_pure h3 (readyRes_new hf.1 rfl (by rw [hm]; rfl) (fun _ => rfl) (fun _ h => by cases h) ho.2 (fun n h => by cases h) (fun n h => by cases h))
    | cont d => exact readies_bind (hw w ho.1) fun _ s1 h1 _ _ => readies_pure h1 readyRes_done
    | procs => exact readies_bind (hw w ho.1) fun _ s1 h1 _ _ => readies_pure h1 readyRes_done
    | nothing => exact readies_bind (hw w ho.1) fun _ s1 h1 _ _ => readies_pure h1 readyRes_done
  | ret w r => exact readies_bind (hw w ho) fun _ s1 h1 _ _ => readies_pure h1 readyRes_done
  | raise w x => exact readies_bind (hw w ho) fun _ s1 h1 _ _ => readies_throw h1

theorem readies_localResume {name : String} {ev : Verif.Ev} {k : Mach → Out Mach YV Unit} {x : Except PyErr SVal} {pt : Pt} (h : Ready (fun _ => 0) X s) (hk : ∀ w, (k w).Moves Gains w) (hm : pt.module = Option.none) :
    Readies X (localResume name ev k x) s (ReadyRes e pt) := by
  rcases x with x | v
  · by_cases hi : x = .interrupt
    · subst hi; exact readies_pure h readyRes_done
    · have : localResume name ev k (.error x) = .throw x := by cases x <;> first | rfl | exact absurd rfl hi
      rw [this]; exact readies_throw h
  · exact readies_bind (readies_print h) fun _ s1 h1 _ _ => readies_bind (readies_activateProc h1) fun _ s2 h2 _ _ => readies_bind (readies_env h2) fun _ s3 h3 _ _ =>
      readies_bind (readies_get h3) fun w s4 h4 _ hw => by obtain ⟨rfl, rfl⟩ := hw; exact readies_localRun h4 (hk _) hm

theorem readies_activateOf {name : String} (h : Ready (fun _ => 0) X s) : Readies X (activateOf name) s (fun s' a => s' = s ∧ alook name s.activate = some a) := by
  unfold Readies Does activateOf
  cases hl : alook name s.activate with
  | none => exact ⟨h, pace_refl _, by simp⟩
  | some a => exact ⟨h, pace_refl _, fun b hb => by cases hb; exact ⟨rfl, rfl⟩⟩

theorem ready_module {pt : Pt} {name : String} {q : ℕ} (h : Ready D (fun q => q = e) s) (he : alook name s.extra = some e) (hq : s.points q = some pt) (hm : pt.module = some name) : q = e := by
  by_contra hne
  have := h.poised.kind q pt name hq hne hm
  rw [he] at this; cases this; exact hne rfl

theorem working_module {pt : Pt} {n : String} (h : pt.working = some n) : pt.module = some n := by cases pt <;> first | exact h | cases h

theorem readies_renew {name : String} (h : Ready (fun _ => 0) (fun q => q = e) s) (he : alook name s.extra = some e) : Readies (fun q => q = e) (renewActivate name) s
    (fun s' a => Mellow s' a ∧ (∀ q, .resume q ∉ s'.cbs a) ∧ a ≠ s'.procActivate ∧ alook name s'.activate = some a ∧ s'.startedList = s.startedList ∧ (∀ p, s'.strikes p = s.strikes p) ∧ ∀ n, (n, a) ∈ s'.activate → n = name) := by
  unfold renewActivate
  refine readies_bind (readies_newEvent h) fun a s1 h1 g1 ⟨hf, hs, hp⟩ => ?_
  have hg : Pace s1 { s1 with activate := aset name a s1.activate } := ⟨rfl, le_rfl, fun _ _ => rfl, fun _ _ => rfl, rfl, fun _ h => h, fun _ _ _ h => h, fun _ h => .inl h⟩
  have hr : Ready (fun _ => 0) (fun q => q = e) { s1 with activate := aset name a s1.activate } := by
    refine ⟨poised_activate h1.poised hf.plain.1 hf.proc hf.free hf.act fun q pt hq hm => ready_module h1 (by rw [g1.extra]; exact he) hq hm, placed_pace hg h1.placed (fun n b hn => ?_) (.inl rfl) (.inl rfl), h1.blank⟩
    rcases aset_mem' hn with ⟨-, rfl⟩ | hn
    · exact .inr (mellow_pace hg hf.plain)
    · exact .inl hn
  refine readies_bind (Q := fun s' _ => s' = { s1 with activate := aset name a s1.activate }) ⟨hr, hg, fun _ _ => rfl⟩ fun _ s2 h2 _ h3 => readies_pure h2 ?_
  subst h3
  refine ⟨mellow_pace hg hf.plain, hf.free, hf.proc, by rw [alook_aset, if_pos rfl], hs.started, hs.strikes, fun n hn => ?_⟩
  rcases aset_mem' hn with ⟨h4, _⟩ | hn
  · exact h4
  · exact absurd hn (hf.act n)

theorem readies_extraLoop {C : Cfg} {name : String} {pt : Pt} (h : Ready (fun _ => 0) (fun q => q = e) s) (hm : pt.module = some name) (hh : pt.helper = false) (he : alook name s.extra = some e)
    (hc : s.strikes e = 0 ∨ s.strikes e + 1 ≤ orders name s.startedList) : Readies (fun q => q = e) (extraLoop C name) s (ReadyRes e pt) := by
  unfold extraLoop
  refine readies_bind (readies_get h) fun l s1 h1 _ hl => ?_
  obtain ⟨rfl, rfl⟩ := hl
  have hidle : ∀ {s2 : Sim} {a : ℕ}, Mellow s2 a → (∀ q, .resume q ∉ s2.cbs a) → a ≠ s2.procActivate → alook name s2.activate = some a → s2.strikes e = 0 → (∀ n, (n, a) ∈ s2.activate → n = name) →
      ReadyRes e pt s2 (.wait a (.extraIdle name)) := fun {s2 a} h1 h2 h3 h4 h5 h6 ev pt' hw => by
    cases hw
    exact ⟨h1.1, h2, h1.2.1, h1.2.2, rfl, ⟨hm.symm, fun h => by rw [hh] at h; cases h⟩, (fun _ h => by cases h), trivial, (fun n hn => by rw [h6 n hn]), fun hp => absurd hp h3,
      (fun n hn => by cases hn; exact ⟨h4, h5⟩), (fun n hn => by cases hn)⟩
  cases ht : takeFor name s1.startedList with
  | error x => exact readies_throw h1
  | ok o =>
    rcases o with _ | ⟨⟨i, d⟩, rest⟩
    · have hst : s1.strikes e = 0 := by
        rcases hc with hc | hc
        · exact hc
        · rw [orders_none ht] at hc; omega
      refine readies_bind (readies_quiet h1 ⟨rfl, rfl, rfl, rfl, rfl, rfl, rfl, rfl, rfl, rfl⟩ rfl) fun _ s2 h2 _ hs2 => ?_
      refine readies_bind (readies_activateOf h2) fun a s3 h3 _ ha => ?_
      obtain ⟨rfl, ha⟩ := ha
      have hst3 : s3.strikes e = 0 := by rw [hs2]; exact hst
      have he3 : alook name s3.extra = some e := by rw [hs2]; exact he
      refine readies_bind (readies_get h3) fun gone s4 h4 _ hg => ?_
      obtain ⟨rfl, -⟩ := hg
      refine readies_ite (fun _ => ?_) fun _ => readies_pure h4 ?_
      · refine readies_bind (readies_renew h4 he3) fun a' s5 h5 _ hr => readies_pure h5 ?_
        obtain ⟨a1, a2, a3, a4, a5, a6, a7⟩ := hr
        exact hidle a1 a2 a3 a4 (by rw [a6]; exact hst3) a7
      · have hmem := alook_mem ha
        obtain ⟨_, b2, b3⟩ := h4.poised.act name a hmem
        refine hidle (h4.placed.act name a hmem) (fun q hq => ?_) b2 ha hst3 fun n hn => h4.poised.dist n name a hn hmem
        have := ready_module h4 he3 (b3 q hq) rfl
        exact (h4.poised.run e rfl).2 a (this ▸ hq)
    · obtain ⟨ho1, ho2⟩ := orders_take ht
      have ha2 := aside_setStarted s1 rest
      have h2 : Ready (fun _ => 0) (fun q => q = e) (s1.setStarted rest) := ready_aside h1 ha2 fun q pt' n hq hx hw hb => by
        have hne : n ≠ name := fun hn => hx (ready_module h1 he hq (hn ▸ working_module hw))
        rw [startedList_setStarted, ho2 n hne]; exact hb
      refine readies_bind (Q := fun s' _ => s' = s1.setStarted rest) ⟨h2, pace_aside ha2, fun _ _ => rfl⟩ fun _ s2 h2 _ hs2 => ?_
      have hst : s2.strikes e ≤ orders name s2.startedList := by
        rw [hs2, startedList_setStarted, strikes_aside ha2]
        rcases hc with hc | hc <;> omega
      refine readies_bind (readies_activateOf h2) fun a s3 h3 _ ha => ?_
      obtain ⟨rfl, ha⟩ := ha
      refine readies_bind (readies_get h3) fun busy s4 h4 _ hb => ?_
      obtain ⟨rfl, rfl⟩ := hb
      have hrest : ∀ {s5 : Sim}, Ready (fun _ => 0) (fun q => q = e) s5 → (∃ a, alook name s5.activate = some a ∧ s5.triggered a = true) → s5.strikes e ≤ orders name s5.startedList →
          Readies (fun q => q = e) (do let pro ← process (.localNew name (Desc.run C d)); return .wait pro (.extraMain name pro) : SimM Res) s5 (ReadyRes e pt) := fun {s5} h5 hact hle =>
        readies_bind (readies_process h5 (fun p hp => (Nat.lt_succ_self _).trans (h5.poised.run p hp).1) rfl rfl rfl (gains_run C d)) fun pro s6 h6 g6 hf =>
          readies_pure h6 (readyRes_new hf.1 rfl hm.symm (fun h => by rw [hh] at h; cases h) (fun q hq => by cases hq; exact hf.2.2.2 rfl) trivial (fun n h => by cases h) fun n hn => by
            cases hn
            rw [hf.2.1.activate, hf.2.1.strikes, hf.2.1.started]
            exact ⟨hact.imp fun a ha => ha.imp_right (g6.trig a), hle⟩)
      dsimp only
      refine readies_ite (fun hb => hrest h4 ⟨a, ha, hb⟩ hst) fun _ => readies_bind (readies_succeed h4 (h4.poised.act name a (alook_mem ha)).1) fun _ s5 h5 _ hs => ?_
      exact hrest h5 ⟨a, by rw [hs.1.activate]; exact ha, hs.2.2⟩ (by rw [hs.1.strikes, hs.1.started]; exact hst)

theorem readies_extraAfterMain {C : Cfg} {name : String} {pro : ℕ} {x : Except PyErr SVal} (h : Ready (fun _ => 0) (fun q => q = e) s) (hp : s.points e = some (.extraMain name pro)) (he : alook name s.extra = some e)
    (hpro : Helps s pro) (ha : ∃ a, alook name s.activate = some a ∧ s.triggered a = true) (hc : s.strikes e = 0 ∨ s.strikes e + 1 ≤ orders name s.startedList) (hv : ∀ v, x = .ok v → s.strikes e = 0) :
    Readies (fun q => q = e) (extraAfterMain C name pro x) s (ReadyRes e (.extraMain name pro)) := by
  rcases x with x | v
  · by_cases hi : x = .interrupt
    · subst hi
      refine readies_bind (readies_get h) fun over s1 h1 g1 ho => ?_
      obtain ⟨rfl, -⟩ := ho
      have hne : e ≠ pro := fun hne => by
        have := hpro.2 _ (hne ▸ hp)
        cases this
      dsimp only
      refine readies_ite (fun _ => readies_extraLoop h1 rfl rfl he hc) fun _ => ?_
      obtain ⟨b1, b2, b3, b4, b5, b6⟩ := ready_interrupt (D' := fun _ => 0) h1 ⟨hpro.1, fun pt hpt => .inl (hpro.2 pt hpt)⟩ (fun _ => le_rfl) fun _ => by
        have hno : ∀ pt, s1.points pro = some pt → pt.helper = false → False := fun pt hpt hf => by rw [hpro.2 pt hpt] at hf; cases hf
        exact ⟨fun n hn => (hno _ hn rfl).elim, fun n hn => hno _ hn rfl, fun pt n hpt hw => (hno pt hpt (by cases pt <;> first | rfl | cases hw)).elim⟩
      refine readies_bind (Q := fun s' _ => s' = (interruptProcess pro s1).1) ⟨b1, b2, fun _ _ => rfl⟩ fun _ s2 h2 _ hs => ?_
      subst hs
      exact readies_extraLoop h2 rfl rfl (by rw [b2.extra]; exact he) (by rw [b6 e hne, b4]; exact hc)
    · have : extraAfterMain C name pro (.error x) = .throw x := by cases x <;> first | rfl | exact absurd rfl hi
      rw [this]; exact readies_throw h
  · have h0 := hv v rfl
    cases v with
    | cont d =>
      exact readies_bind (readies_process h (fun p hp => (Nat.lt_succ_self _).trans (h.poised.run p hp).1) rfl rfl rfl (gains_run C d)) fun pro s6 h6 g6 hf =>
        readies_pure h6 (readyRes_new hf.1 rfl rfl (fun h => by cases h) (fun _ h => by cases h) trivial (fun n h => by cases h) fun n hn => by
          cases hn
          rw [hf.2.1.activate, hf.2.1.strikes, hf.2.1.started]
          exact ⟨ha.imp fun a ha => ha.imp_right (g6.trig a), by omega⟩)
    | nothing => exact readies_extraLoop h rfl rfl he hc
    | procs => exact readies_extraLoop h rfl rfl he hc

theorem readies_extraAfterCont {C : Cfg} {name : String} {x : Except PyErr SVal} (h : Ready (fun _ => 0) (fun q => q = e) s) (he : alook name s.extra = some e)
    (hc : s.strikes e = 0 ∨ s.strikes e + 1 ≤ orders name s.startedList) : Readies (fun q => q = e) (extraAfterCont C name x) s (ReadyRes e (.extraCont name)) := by
  rcases x with x | v
  · by_cases hi : x = .interrupt
    · subst hi; exact readies_extraLoop h rfl rfl he hc
    · have : extraAfterCont C name (.error x) = .throw x := by cases x <;> first | rfl | exact absurd rfl hi
      rw [this]; exact readies_throw h
  · exact readies_extraLoop h rfl rfl he hc

/-- No module is waiting to be started. -/
def NoneNew (s : Sim) : Prop := ∀ q n, s.points q ≠ some (.extraNew n)

/-- A module that is active is interrupted, for a request that is there. -/
theorem readies_interruptExtra {name : String} {D' : String → ℕ} (h : Ready D X s) (hn : NoneNew s)
    (ha : ∃ a, alook name s.activate = some a ∧ s.triggered a = true) (hd : ∀ n, D' n ≤ D n)
    (hb : ∀ q pt, s.points q = some pt → ¬ X q → pt.working = some name → s.strikes q + 1 + D' name ≤ orders name s.startedList) :
    Readies X (interruptExtra name) s (fun s' _ => Ready D' X s' ∧ s'.points = s.points) := by
  have h0 : Ready (fun _ => 0) X s := ready_mono h fun _ => Nat.zero_le _
  unfold Readies Does interruptExtra
  cases hl : alook name s.extra with
  | none => exact ⟨h0, pace_refl _, by simp⟩
  | some q =>
    obtain ⟨hk, hmod⟩ := h.poised.extra name q (alook_mem hl)
    obtain ⟨b1, b2, b3, b4, b5, b6⟩ := ready_interrupt (q := q) (D' := D') h ⟨hk, fun pt hpt => .inr (by rw [hmod pt hpt]; rfl)⟩ hd fun hxq => by
      refine ⟨fun n hq => ?_, fun n hq => hn q n hq, fun pt n hq hw => ?_⟩
      · have h1 := (h.poised.idle q n hq hxq).1
        have h2 : n = name := by have := hmod _ hq; cases this; rfl
        subst h2
        obtain ⟨a, h3, h4⟩ := ha
        rw [h3] at h1; cases h1; exact h4
      · have h2 : n = name := by have := (working_module hw).symm.trans (hmod pt hq); cases this; rfl
        subst h2
        exact hb q pt hq hxq hw
    exact ⟨ready_mono b1 fun _ => Nat.zero_le _, b2, fun _ _ => ⟨b1, b3⟩⟩

theorem readies_interruptibles {f : Sim → List (String × ℕ)} (h : Ready D X s) : Readies X (SimM.set (fun s => { s with interruptibles := f s })) s (fun s' _ => Ready D X s' ∧ s' = { s with interruptibles := f s }) := by
  have h1 : Ready D X { s with interruptibles := f s } := ready_aside h ⟨rfl, rfl, rfl, rfl, rfl, rfl, rfl, rfl, rfl, rfl⟩ fun _ _ _ _ _ _ hb => hb
  exact ⟨ready_mono h1 fun _ => Nat.zero_le _, pace_aside ⟨rfl, rfl, rfl, rfl, rfl, rfl, rfl, rfl, rfl, rfl⟩, fun _ _ => ⟨h1, rfl⟩⟩

theorem ready_succeed {ev : ℕ} (h : Ready D X s) (hk : ev < s.next) : Readies X (succeed ev) s (fun s' _ => Ready D X s' ∧ s'.points = s.points) := by
  have h0 : Ready (fun _ => 0) X s := ready_mono h fun _ => Nat.zero_le _
  unfold Readies Does succeed
  split
  · exact ⟨h0, pace_refl _, by simp⟩
  · rename_i ht
    have ht : s.triggered ev = false := by simpa using ht
    have h1 := ready_trigger (v := .ok .nothing) h hk ht
    exact ⟨ready_mono h1 fun _ => Nat.zero_le _, pace_trigger _ _ _, fun _ _ => ⟨h1, rfl⟩⟩

theorem readies_notify {x : PItem} {r : List PItem} (h : Ready (fun n => orders n (x :: r)) X s) (hn : NoneNew s) :
    Readies X (notify x) s (fun s' _ => Ready (fun n => orders n r) X s' ∧ s'.points = s.points) := by
  have h0 : Ready (fun _ => 0) X s := ready_mono h fun _ => Nat.zero_le _
  have hle : ∀ n, orders n r ≤ orders n (x :: r) := fun n => by unfold orders; rw [List.countP_cons]; omega
  have h' : Ready (fun n => orders n r) X s := ready_mono h hle
  cases x with
  | procedural => exact readies_throw h0
  | gen name i d =>
    refine readies_bind (readies_activateOf h0) fun a s1 _ _ ha => ?_
    obtain ⟨rfl, ha⟩ := ha
    refine readies_bind (readies_get h0) fun busy s2 h2 g2 hb => ?_
    obtain ⟨rfl, rfl⟩ := hb
    refine readies_ite (fun hb => ?_) fun _ => ?_
    · refine readies_bind (readies_get h2) fun old s3 h3 _ ho => ?_
      obtain ⟨rfl, -⟩ := ho
      cases old with
      | none => exact readies_pure h3 ⟨h', rfl⟩
      | some j =>
        refine readies_ite (fun _ => readies_pure h3 ⟨h', rfl⟩) fun _ => readies_bind (readies_interruptibles (f := fun s => aset name i s.interruptibles) h) fun _ s4 h4 _ hs => ?_
        obtain ⟨hr, hs⟩ := hs
        have hp4 : s4.points = s3.points := by rw [hs]
        refine does_mono (readies_interruptExtra (D' := fun n => orders n r) hr (by unfold NoneNew; rw [hp4]; exact hn) ⟨a, by rw [hs]; exact ha, by rw [hs]; exact hb⟩ hle fun q pt hq hxq hw => ?_) fun s' _ _ _ hq => ⟨hq.1, hq.2.trans hp4⟩
        have := (hr.poised.busy q pt name hq hxq hw).2
        have ho : orders name (PItem.gen name i d :: r) = orders name r + 1 := by unfold orders; simp [PItem.isFor]
        rw [ho] at this; omega
    · have hk := (h2.poised.act name a (alook_mem ha)).1
      dsimp only
      refine readies_ite (fun _ => readies_bind (readies_interruptibles (f := fun s => aset name i s.interruptibles) h') fun _ s4 h4 g4 hs => ?_) fun _ => ready_succeed h' hk
      obtain ⟨hr, hs⟩ := hs
      exact does_mono (ready_succeed hr (by rw [hs]; exact hk)) fun s' _ _ _ hq => ⟨hq.1, hq.2.trans (by rw [hs])⟩

theorem readies_notifyAll (l : List PItem) : ∀ {s : Sim}, Ready (fun n => orders n l) X s → NoneNew s → Readies X (notifyAll l) s (fun _ _ => True) := by
  induction l with
  | nil => intro s h _; exact readies_pure h trivial
  | cons x r ih =>
    intro s h hn
    exact readies_bind (readies_notify h hn) fun _ s1 _ _ hq => ih hq.1 (by unfold NoneNew; rw [hq.2]; exact hn)

theorem readies_procCycle {C : Cfg} {pt pt' : Pt} (h : Ready (fun _ => 0) X s) (hm : pt.module = Option.none) (hh : pt.helper = false) (hp : pt' = .procFirst ∨ pt' = .procAgain) : Readies X (procCycle C pt') s (ReadyRes e pt) :=
  readies_bind (readies_get h) fun now s1 h1 _ _ => readies_bind (readies_process h1 (fun p hp => (Nat.lt_succ_self _).trans (h1.poised.run p hp).1) rfl rfl rfl (gains_procedural C now)) fun pro s2 h2 _ hf => by
    refine readies_pure h2 (readyRes_new hf.1 ?_ ?_ (fun h => by rw [hh] at h; cases h) ?_ ?_ ?_ ?_) <;> rcases hp with rfl | rfl <;> first | rfl | exact hm.symm | (intro n h; cases h) | trivial

theorem readies_procSpins {n : ℕ} {pt : Pt} (h : Ready (fun _ => 0) X s) (hm : pt.module = Option.none) (hh : pt.helper = false) : Readies X (procSpins n) s (ReadyRes e pt) :=
  readies_bind (readies_timeout h) fun t s1 h1 _ hf => readies_pure h1 (readyRes_new hf.1 rfl hm.symm (fun h => by rw [hh] at h; cases h) (fun _ h => by cases h) trivial (fun n h => by cases h) (fun n h => by cases h))

theorem readies_procLoop {pt : Pt} (h : Ready (fun _ => 0) (fun q => q = e) s) (he : e = 2) (hp : s.points e = some pt) (hm : pt.module = Option.none) (hh : pt.helper = false) (hn : NoneNew s)
    (hz : ∀ q pt n, s.points q = some pt → pt.working = some n → s.strikes q = 0) : Readies (fun q => q = e) procLoop s (ReadyRes e pt) := by
  unfold procLoop
  refine readies_bind (readies_get h) fun l s1 h1 _ hl => readies_ite (fun _ => ?_) fun _ => ?_
  · obtain ⟨rfl, rfl⟩ := hl
    have ha2 := aside_setStarted s1 (removeProcedural s1.startedList)
    have h2 : Ready (fun n => orders n (removeProcedural s1.startedList)) (fun q => q = e) (s1.setStarted (removeProcedural s1.startedList)) := by
      have h3 : Ready (fun _ => 0) (fun q => q = e) (s1.setStarted (removeProcedural s1.startedList)) := ready_aside h1 ha2 fun q pt' n hq hx hw hb => by rw [startedList_setStarted, orders_remove]; exact hb
      refine ⟨{ h3.poised with busy := fun q pt' n hq hx hw => ⟨(h3.poised.busy q pt' n hq hx hw).1, ?_⟩ }, h3.placed, h3.blank⟩
      rw [startedList_setStarted, strikes_aside ha2, hz q pt' n (by rw [← ha2.2.2.1]; exact hq) hw, Nat.zero_add]
    refine readies_bind (Q := fun s' _ => s' = s1.setStarted (removeProcedural s1.startedList)) ⟨ready_mono h2 fun _ => Nat.zero_le _, pace_aside ha2, fun _ _ => rfl⟩ fun _ s2 h2' _ hs2 => ?_
    refine readies_bind (readies_get h2') fun l s3 h3 _ hl => ?_
    obtain ⟨rfl, rfl⟩ := hl
    have hp3 : s3.points = s1.points := by rw [hs2]; exact ha2.2.2.1
    refine readies_bind (readies_notifyAll s3.startedList ?_ ?_) fun _ s4 h4 _ _ => readies_procSpins h4 hm hh
    · rw [hs2, startedList_setStarted]; exact h2
    · unfold NoneNew; rw [hp3]; exact hn
  · refine readies_bind (readies_get h1) fun a s2 h2 _ ha => ?_
    refine readies_bind (readies_get h2) fun gone s3 h3 _ hg => readies_ite (fun _ => readies_procSpins h3 hm hh) fun _ => ?_
    obtain ⟨rfl, rfl⟩ := ha
    obtain ⟨rfl, -⟩ := hg
    refine readies_pure h3 fun ev pt' hw => ?_
    cases hw
    have hpl := h3.placed.proc
    refine ⟨hpl.1, fun q hq => ?_, hpl.2.1, hpl.2.2, rfl, ⟨hm.symm, fun h => by rw [hh] at h; cases h⟩, (fun _ h => by cases h), trivial, fun n hn => absurd rfl (h3.poised.act n _ hn).2.1, fun _ => he,
      (fun n hn => by cases hn), (fun n hn => by cases hn)⟩
    have h4 := h3.poised.proc.2 q hq
    exact (h3.poised.run e rfl).2 _ (by rw [he, ← h4]; exact hq)

theorem readies_procsReturned {v : SVal} (h : Ready (fun _ => 0) X s) (hz : ∀ q pt n, s.points q = some pt → pt.working = some n → s.strikes q = 0) :
    Readies X (procsReturned v) s (fun s' _ => s' = { s with started := Option.none }) := by
  cases v with
  | procs =>
    refine ⟨ready_aside h ⟨rfl, rfl, rfl, rfl, rfl, rfl, rfl, rfl, rfl, rfl⟩ fun q pt n hq _ hw _ => ?_, pace_aside ⟨rfl, rfl, rfl, rfl, rfl, rfl, rfl, rfl, rfl, rfl⟩, fun _ _ => rfl⟩
    rw [hz q pt n hq hw]; exact Nat.zero_le _
  | nothing => exact readies_throw h
  | cont d => exact readies_throw h

theorem readies_envIter {ev : EnvEvent} {k : Mach → Out Mach EnvEvent Unit} {pt : Pt} (h : Ready (fun _ => 0) X s) (hk : ∀ w, (k w).Moves Gains w) (hm : pt.module = Option.none) (hh : pt.helper = false) :
    Readies X (envIter ev k) s (ReadyRes e pt) :=
  readies_bind (readies_process h (fun p hp => (Nat.lt_succ_self _).trans (h.poised.run p hp).1) rfl rfl rfl trivial) fun pro s1 h1 _ hf => readies_bind (readies_get h1) fun a s2 h2 _ ha => by
    obtain ⟨rfl, rfl⟩ := ha
    exact readies_bind (readies_anyOf h2 hf.1.plain h2.placed.env) fun c s3 h3 g3 hc => readies_pure h3 (readyRes_new hc.1 rfl hm.symm (fun h => by rw [hh] at h; cases h)
      (fun q hq => by cases hq; exact helps_next g3.next (by rw [hc.2.2]) (hf.2.2.2 rfl)) hk (fun n h => by cases h) (fun n h => by cases h))

theorem readies_from {s0 : Sim} (hg : Pace s0 s) {m : SimM A} {Q : Sim → A → Prop} (h : Readies X m s Q) : Ready (fun _ => 0) X (m s).1 ∧ Pace s0 (m s).1 ∧ ∀ a, (m s).2 = .ok a → Q (m s).1 a :=
  ⟨h.1, pace_trans _ _ _ hg h.2.1, h.2.2⟩

theorem readies_envStart {C : Cfg} {pt : Pt} (h : Ready (fun _ => 0) X s) (hm : pt.module = Option.none) (hh : pt.helper = false) : Readies X (envStart C) s (ReadyRes e pt) := by
  unfold Readies Does envStart
  cases ha : s.envArgs with
  | none => exact ⟨h, pace_refl _, by simp⟩
  | some a =>
    dsimp only
    have hg := gains_env C.upper a.stimuli a.triggers a.times a.startTime s.w
    have hw : ∀ w, Gains s.w w → Ready (fun _ => 0) X { s with w := w, envArgs := some a } := fun w hw => ready_w h hw
    cases hp : envProcess (fun env w => { w with env := some env }) envOf C.upper a.stimuli a.triggers a.times a.startTime s.w with
    | yield w ev k => rw [hp] at hg; exact readies_from (s := { s with w := w, envArgs := some a }) (pace_aside (aside_w s w _)) (readies_envIter (hw w hg.1) hg.2 hm hh)
    | ret w r => rw [hp] at hg; exact ⟨hw w hg, pace_aside ⟨rfl, rfl, rfl, rfl, rfl, rfl, rfl, rfl, rfl, rfl⟩, by simp⟩
    | raise w x => rw [hp] at hg; exact ⟨hw w hg, pace_aside ⟨rfl, rfl, rfl, rfl, rfl, rfl, rfl, rfl, rfl, rfl⟩, by simp⟩

theorem readies_startAutomatic {name : String} {i : ℕ} {d : Desc} (h : Ready (fun _ => 0) X s) (hn : NoneNew s) :
    Readies X (startAutomatic name i d) s (fun s' _ => s'.points = s.points) := by
  unfold startAutomatic
  set l := s.startedList ++ [PItem.gen name i d] with hl
  have ha1 := aside_setStarted s l
  have hle : ∀ n, orders n s.startedList ≤ orders n l := fun n => by rw [hl, orders_append]; omega
  have h1 : Ready (fun _ => 0) X (s.setStarted l) := ready_aside h ha1 fun q pt' n hq hx hw hb => by rw [startedList_setStarted]; exact hb.trans (hle n)
  have hb1 : ∀ q pt, (s.setStarted l).points q = some pt → ¬ X q → pt.working = some name → (s.setStarted l).strikes q + 1 ≤ orders name (s.setStarted l).startedList := fun q pt hq hxq hw => by
    rw [startedList_setStarted, strikes_aside ha1, hl, orders_append]
    have := (h.poised.busy q pt name (by rw [← ha1.2.2.1]; exact hq) hxq hw).2
    have ho : orders name [PItem.gen name i d] = 1 := by simp [orders, PItem.isFor]
    omega
  have hp1 : (s.setStarted l).points = s.points := ha1.2.2.1
  refine readies_bind (Q := fun s' _ => s' = s.setStarted l) ⟨h1, pace_aside ha1, fun _ _ => rfl⟩ fun _ s1 h1 _ hs1 => ?_
  rw [← hs1] at hb1 hp1
  refine readies_bind (readies_activateOf h1) fun a s2 h2 _ ha => ?_
  obtain ⟨rfl, ha⟩ := ha
  refine readies_bind (readies_get h2) fun busy s3 h3 _ hb => ?_
  obtain ⟨rfl, rfl⟩ := hb
  refine readies_ite (fun hb => ?_) fun _ => ?_
  · refine readies_bind (readies_get h3) fun old s4 h4 _ ho => ?_
    obtain ⟨rfl, -⟩ := ho
    cases old with
    | none => exact readies_throw h4
    | some j =>
      refine readies_bind (readies_interruptibles (f := fun s => aset name i s.interruptibles) h4) fun _ s5 h5 _ hs => ?_
      obtain ⟨-, hs⟩ := hs
      have hp5 : s5.points = s4.points := by rw [hs]
      refine does_mono (readies_interruptExtra (D' := fun _ => 0) h5 (by unfold NoneNew; rw [hp5, hp1]; exact hn) ⟨a, by rw [hs]; exact ha, by rw [hs]; exact hb⟩ (fun _ => le_rfl) fun q pt hq hxq hw => ?_) fun s' _ _ _ hq => hq.2.trans (hp5.trans hp1)
      rw [hs] at hq ⊢
      exact hb1 q pt hq hxq hw
  · refine readies_bind (readies_interruptibles (f := fun s => aset name i s.interruptibles) h3) fun _ s5 h5 _ hs => ?_
    obtain ⟨-, hs⟩ := hs
    exact does_mono (ready_succeed h5 (by rw [hs]; exact (h3.poised.act name a (alook_mem ha)).1)) fun s' _ _ _ hq => hq.2.trans (by rw [hs]; exact hp1)

theorem readies_automatic {name : String} (h : Ready (fun _ => 0) X s) (hn : NoneNew s) : Readies X (automatic name) s (fun s' _ => s'.points = s.points) := by
  unfold Readies Does automatic
  cases s.w.buf name with
  | none => exact ⟨h, pace_refl _, fun _ _ => rfl⟩
  | some b =>
    dsimp only
    cases automaticFor name b s.w.onScreen s.now with
    | none => exact ⟨h, pace_refl _, fun _ _ => rfl⟩
    | some d =>
      exact readies_from (s := { s with w := { s.w with nextId := s.w.nextId + 1 } }) (pace_aside (aside_w s _ _)) (readies_startAutomatic (ready_w h (gains_procs rfl)) hn)

theorem readies_automaticAll (l : List String) : ∀ {s : Sim}, Ready (fun _ => 0) X s → NoneNew s → Readies X (automaticAll l) s (fun _ _ => True) := by
  induction l with
  | nil => intro s h _; exact readies_pure h trivial
  | cons x r ih => intro s h hn; exact readies_bind (readies_automatic h hn) fun _ s1 h1 _ hq => ih h1 (by unfold NoneNew; rw [hq]; exact hn)

theorem readies_envNext {pro : ℕ} (h : Ready (fun _ => 0) X s) (hpro : Helps s pro) : Readies X (envNext pro) s (fun s' _ => s'.points = s.points) := by
  unfold envNext
  refine readies_bind (readies_get h) fun a s1 h1 _ ho => ?_
  obtain ⟨rfl, -⟩ := ho
  refine readies_bind (readies_get h1) fun pressed s2 h2 _ ho => ?_
  obtain ⟨rfl, -⟩ := ho
  refine readies_ite (fun _ => ?_) fun _ => readies_pure h2 rfl
  refine readies_bind (readies_newEvent h2) fun a' s3 h3 g3 hf => ?_
  have hg : Pace s3 { s3 with envActivate := a' } := ⟨rfl, le_rfl, fun _ _ => rfl, fun _ _ => rfl, rfl, fun _ h => h, fun _ _ _ h => h, fun _ h => .inl h⟩
  have hr : Ready (fun _ => 0) X { s3 with envActivate := a' } := by
    have hp := h3.poised
    exact ⟨⟨hp.sorted, hp.ord, hp.known, hp.born, hp.unborn, hp.run, hp.intr, hp.now, hp.extra, hp.refs, hp.kind, hp.init, hp.urg, hp.one, hp.act, hp.dist, hp.proc, hp.idle, hp.busy, hp.newb, hp.gens⟩,
      placed_pace hg h3.placed (fun _ _ h => .inl h) (.inl rfl) (.inr (mellow_pace hg hf.1.plain)), h3.blank⟩
  refine readies_bind (Q := fun s' _ => s' = { s3 with envActivate := a' }) ⟨hr, hg, fun _ _ => rfl⟩ fun _ s4 h4 g4 hs => ?_
  have hpro4 : Helps s4 pro := helps_next (s := s2) (g3.next.trans g4.next) (by rw [hs]; exact congrFun hf.2.2 pro) hpro
  obtain ⟨b1, b2, b3, b4, b5, b6⟩ := ready_interrupt (D' := fun _ => 0) h4 ⟨hpro4.1, fun pt hpt => .inl (hpro4.2 pt hpt)⟩ (fun _ => le_rfl) fun _ => by
    have hno : ∀ pt, s4.points pro = some pt → pt.helper = false → False := fun pt hpt hf => by rw [hpro4.2 pt hpt] at hf; cases hf
    exact ⟨fun n hn => (hno _ hn rfl).elim, fun n hn => hno _ hn rfl, fun pt n hpt hw => (hno pt hpt (by cases pt <;> first | rfl | cases hw)).elim⟩
  exact ⟨b1, b2, fun _ _ => b3.trans (by rw [hs]; exact hf.2.2)⟩

theorem readies_envAdvance {k : Mach → Out Mach EnvEvent Unit} {pt : Pt} (h : Ready (fun _ => 0) X s) (hk : ∀ w, (k w).Moves Gains w) (hn : NoneNew s)
    (hm : pt.module = Option.none) (hh : pt.helper = false) : Readies X (envAdvance k) s (ReadyRes e pt) := by
  have hg := hk s.w
  unfold Readies Does envAdvance
  cases hp : k s.w with
  | yield w ev k' =>
    rw [hp] at hg
    exact readies_from (s := { s with w := w }) (pace_aside (aside_w s _ _)) (readies_bind (readies_automaticAll _ (ready_w h hg.1) hn) fun _ s1 h1 _ _ => readies_envIter h1 hg.2 hm hh)
  | ret w r => rw [hp] at hg; exact ⟨ready_w h hg, pace_aside ⟨rfl, rfl, rfl, rfl, rfl, rfl, rfl, rfl, rfl, rfl⟩, fun a ha => by cases ha; exact readyRes_done⟩
  | raise w x => rw [hp] at hg; exact ⟨ready_w h hg, pace_aside ⟨rfl, rfl, rfl, rfl, rfl, rfl, rfl, rfl, rfl, rfl⟩, by simp⟩

theorem readies_envProcStart {ev : Verif.Ev} {pt : Pt} (h : Ready (fun _ => 0) X s) (hm : pt.module = Option.none) : Readies X (envProcStart ev) s (ReadyRes e pt) := by
  have ht := readies_timeout (d := ev.time - s.now) h
  unfold Readies Does envProcStart
  unfold Readies Does at ht
  rcases hr : timeout (ev.time - s.now) s with ⟨s1, x | t⟩
  · rw [hr] at ht
    exact readies_from ht.2.1 (readies_bind (readies_activateProc ht.1) fun _ s2 h2 _ _ => readies_throw h2)
  · rw [hr] at ht
    exact ⟨ht.1, ht.2.1, fun a ha => by
      cases ha
      exact readyRes_new (ht.2.2 t rfl).1 rfl hm.symm (fun _ => rfl) (fun _ h => by cases h) trivial (fun n h => by cases h) (fun n h => by cases h)⟩

theorem readies_envProcResume {ev : Verif.Ev} {x : Except PyErr SVal} {pt : Pt} (h : Ready (fun _ => 0) X s) : Readies X (envProcResume ev x) s (ReadyRes e pt) := by
  rcases x with x | v
  · by_cases hi : x = .interrupt
    · subst hi; exact readies_bind (readies_activateProc h) fun _ s1 h1 _ _ => readies_pure h1 readyRes_done
    · have : envProcResume ev (.error x) = (do activateProc ev; .throw x : SimM Res) := by cases x <;> first | rfl | exact absurd rfl hi
      rw [this]; exact readies_bind (readies_activateProc h) fun _ s1 h1 _ _ => readies_throw h1
  · exact readies_bind (readies_print h) fun _ s1 h1 _ _ => readies_bind (readies_activateProc h1) fun _ s2 h2 _ _ => readies_pure h2 readyRes_done

end Verif
