import Verif.Lemmas.Asked
import Verif.Lemmas.Compile
/-! # Where requests come from: all states -/
namespace Verif
open Verif.Spec

variable {A B : Type} {s s' s1 : Sim} {p c : ℕ} {C : Cfg} {S S' : Sources} {tr tr' : List (ℚ × Ev)}

/-! ## The invariant -/

/-- Everything but the process `c`, which goes through the cycle of the rules. -/
structure AsksBut (C : Cfg) (S : Sources) (c : ℕ) (s : Sim) : Prop where
  base : Base S s
  pts : ∀ p pt, s.points p = some pt → p ≠ c → Mine C S s.trace p pt
  lt : c < s.next
  two : 2 < s.next
  ne : c ≠ 2
  main : ∀ pt, s.points 2 = some pt → ((pt = .procFirst ∨ pt = .procAgain) ∧ s.target 2 = c) ∨ ((pt = .procNew ∨ pt.resting) ∧ s.points c = Option.none)

/-- The invariant. -/
structure Asks (C : Cfg) (S : Sources) (c : ℕ) (s : Sim) : Prop extends AsksBut C S c s where
  child : ∀ pt, s.points c = some pt → RulePt C S s.trace s.w pt

theorem base_wider (hS : Wider S S') (h : Base S s) : Base S' s :=
  ⟨fun n i d hm => due_mono hS List.prefix_rfl (h.procs n i d hm), fun l hl n i d hm => due_mono hS List.prefix_rfl (h.own l hl n i d hm), fun ev d hv => rooted_mono hS List.prefix_rfl (h.conts ev d hv),
    fun l1 q e l2 he r hr => told_mono hS List.prefix_rfl (h.told l1 q e l2 he r hr)⟩

theorem asks_wider (hS : Wider S S') (h : Asks C S c s) : Asks C S' c s :=
  ⟨⟨base_wider hS h.base, fun p pt hp hc => mine_mono hS List.prefix_rfl (h.pts p pt hp hc), h.lt, h.two, h.ne, h.main⟩, fun pt hp => rulePt_mono hS List.prefix_rfl (own_refl _) (h.child pt hp)⟩

/-- The same but for the schedule and events. -/
structure Unmoved (s s' : Sim) : Prop where
  next : s.next ≤ s'.next
  points : s'.points = s.points
  target : s'.target = s.target
  started : s'.started = s.started
  trace : s'.trace = s.trace
  procs : s'.w.procs = s.w.procs
  own : Own s.w s'.w
  conts : NoConts s s'

theorem unmoved_refl (s : Sim) : Unmoved s s := ⟨le_rfl, rfl, rfl, rfl, rfl, rfl, own_refl _, noConts_refl s⟩
theorem unmoved_trans {a b c : Sim} (h1 : Unmoved a b) (h2 : Unmoved b c) : Unmoved a c :=
  ⟨h1.1.trans h2.1, h2.2.trans h1.2, h2.3.trans h1.3, h2.4.trans h1.4, h2.5.trans h1.5, h2.6.trans h1.6, own_trans h1.7 h2.7, fun ev d h => h1.8 ev d (h2.8 ev d h)⟩

theorem asks_unmoved (h : Asks C S c s) (hs : Unmoved s s') : Asks C S c s' := by
  refine ⟨⟨base_same hs.trace hs.procs hs.started hs.conts h.base, ?_, h.lt.trans_le hs.next, h.two.trans_le hs.next, h.ne, ?_⟩, ?_⟩
  · rw [hs.points, hs.trace]; exact h.pts
  · rw [hs.points, hs.target]; exact h.main
  · rw [hs.points, hs.trace]; exact fun pt hp => rulePt_mono (wider_refl S) List.prefix_rfl hs.own (h.child pt hp)

/-- What code does, also that of the process that goes through the cycle. -/
structure Kid (C : Cfg) (S : Sources) (s s' : Sim) : Prop where
  next : s.next ≤ s'.next
  trace : s.trace <+: s'.trace
  target : ∀ p < s.next, s'.target p = s.target p
  base : Base S s → Base S s' ∧ ∀ p pt, s'.points p = some pt → s.points p = some pt ∨ (s.next ≤ p ∧ Mine C S s'.trace p pt)

theorem Eff.kid (h : Eff C S s s') : Kid C S s s' := ⟨h.next, h.trace, h.target, h.base⟩
theorem kid_trans {a b c : Sim} (h1 : Kid C S a b) (h2 : Kid C S b c) : Kid C S a c := by
  refine ⟨h1.next.trans h2.next, h1.trace.trans h2.trace, fun p hp => (h2.target p (hp.trans_le h1.next)).trans (h1.target p hp), fun h => ?_⟩
  obtain ⟨b1, p1⟩ := h1.base h
  obtain ⟨b2, p2⟩ := h2.base b1
  refine ⟨b2, fun p pt hp => ?_⟩
  rcases p2 p pt hp with hp | ⟨hp, hm⟩
  · rcases p1 p pt hp with hp | ⟨hp, hm⟩
    · exact .inl hp
    · exact .inr ⟨hp, mine_mono (wider_refl S) h2.trace hm⟩
  · exact .inr ⟨h1.next.trans hp, hm⟩

/-- Points of old processes are old. -/
theorem kid_old (h : Kid C S s s') (hb : Base S s) (hp : p < s.next) {pt : Pt} (hpt : s'.points p = some pt) : s.points p = some pt :=
  ((h.base hb).2 p pt hpt).resolve_right fun hc => absurd hc.1 (not_le.2 hp)

theorem asksBut_kid (h : AsksBut C S c s) (hk : Kid C S s s') : AsksBut C S c s' := by
  obtain ⟨hb, hp⟩ := hk.base h.base
  refine ⟨hb, fun p pt hpt hc => ?_, h.lt.trans_le hk.next, h.two.trans_le hk.next, h.ne, fun pt hpt => ?_⟩
  · rcases hp p pt hpt with hpt | ⟨_, hm⟩
    · exact mine_mono (wider_refl S) hk.trace (h.pts p pt hpt hc)
    · exact hm
  · rcases h.main pt (kid_old hk h.base h.two hpt) with ⟨h1, h2⟩ | ⟨h1, h2⟩
    · exact .inl ⟨h1, (hk.target 2 h.two).trans h2⟩
    · refine .inr ⟨h1, ?_⟩
      cases hc : s'.points c with
      | none => rfl
      | some pt' => rw [kid_old hk h.base h.lt hc] at h2; cases h2

theorem asks_eff (h : Asks C S c s) (he : Eff C S s s') : Asks C S c s' :=
  ⟨asksBut_kid h.toAsksBut he.kid, fun pt hpt => rulePt_mono (wider_refl S) he.trace he.own (h.child pt (kid_old he.kid h.base h.lt hpt))⟩

/-! ## A process has run -/

theorem base_waits {ev : ℕ} {pt : Pt} (h : Base S s) : Base S (s.waits p ev pt) := base_same (s := s) rfl rfl rfl (noConts_addCallback _ ev _) h

theorem asks_waits {ev : ℕ} {pt : Pt} (h : Asks C S c s) (hc : p ≠ c) (hm : Mine C S s.trace p pt) (h2 : p = 2 → (pt = .procNew ∨ pt.resting) ∧ s.points c = Option.none) : Asks C S c (s.waits p ev pt) := by
  have hpts : ∀ q, (s.waits p ev pt).points q = if q = p then some pt else s.points q := fun q => rfl
  have htgt : ∀ q, (s.waits p ev pt).target q = if q = p then ev else s.target q := fun q => rfl
  refine ⟨⟨base_waits h.base, fun q pt' hq hqc => ?_, h.lt, h.two, h.ne, fun pt' hq => ?_⟩, fun pt' hq => ?_⟩
  · rw [hpts] at hq
    split at hq
    · rename_i he; subst he; cases hq; exact hm
    · exact h.pts q pt' hq hqc
  · rw [hpts] at hq
    rw [hpts, htgt, if_neg (Ne.symm hc)]
    split at hq
    · rename_i he; cases hq; exact .inr (h2 he.symm)
    · rename_i he; rw [if_neg he]; exact h.main pt' hq
  · rw [hpts, if_neg (Ne.symm hc)] at hq
    exact h.child pt' hq

theorem asks_ends {v : Except PyErr SVal} (h : AsksBut C S c s) (hc : p ≠ c → ∀ pt, s.points c = some pt → RulePt C S s.trace s.w pt) (hv : ∀ d, v = .ok (.cont d) → Rooted S s.trace d) : Asks C S c (s.ends p v) := by
  have hpts : ∀ q, (s.ends p v).points q = if q = p then Option.none else s.points q := fun q => rfl
  refine ⟨⟨⟨h.base.procs, h.base.own, fun ev d hd => ?_, h.base.told⟩, fun q pt' hq hqc => ?_, h.lt, h.two, h.ne, fun pt' hq => ?_⟩, fun pt' hq => ?_⟩
  · rw [value_ends] at hd
    split at hd
    · exact hv d (Option.some.inj hd)
    · exact h.base.conts ev d hd
  · rw [hpts] at hq
    split at hq
    · cases hq
    · exact h.pts q pt' hq hqc
  · rw [hpts] at hq
    split at hq
    · cases hq
    · rcases h.main pt' hq with h1 | ⟨h1, h2⟩
      · exact .inl h1
      · refine .inr ⟨h1, ?_⟩
        rw [hpts, h2]; split <;> rfl
  · rw [hpts] at hq
    split at hq
    · cases hq
    · rename_i he; exact hc (Ne.symm he) pt' hq

/-- The process `c` waits. -/
theorem asks_child {ev : ℕ} {pt : Pt} (h : AsksBut C S c s) (hm : RulePt C S s.trace s.w pt) (h2 : ∀ pt', s.points 2 = some pt' → (pt' = .procFirst ∨ pt' = .procAgain) ∧ s.target 2 = c) : Asks C S c (s.waits c ev pt) := by
  have hpts : ∀ q, (s.waits c ev pt).points q = if q = c then some pt else s.points q := fun q => rfl
  have htgt : ∀ q, (s.waits c ev pt).target q = if q = c then ev else s.target q := fun q => rfl
  refine ⟨⟨base_waits h.base, fun q pt' hq hqc => ?_, h.lt, h.two, h.ne, fun pt' hq => ?_⟩, fun pt' hq => ?_⟩
  · rw [hpts, if_neg hqc] at hq
    exact h.pts q pt' hq hqc
  · rw [hpts, if_neg (Ne.symm h.ne)] at hq
    rw [htgt, if_neg (Ne.symm h.ne)]
    exact .inl (h2 pt' hq)
  · rw [hpts, if_pos rfl] at hq
    cases hq
    exact hm

/-! ## The process that goes through the cycle -/

/-- What is known after the announced event has been reported. -/
def AskNow (S : Sources) (tr : List (ℚ × Ev)) : Ask → Prop
  | .none => True
  | .tested f => S.G f
  | .fired f => S.G f ∧ HasFired tr f

/-- The result of a part of the cycle. -/
def ChildRes (C : Cfg) (S : Sources) (tr : List (ℚ × Ev)) (w : Mach) : Res → Prop
  | .wait _ pt => RulePt C S tr w pt
  | .done v => ∀ d, v = .cont d → Rooted S tr d

theorem kid_adds {ph : Ask} {w : Mach} (hp : AskNow S s.trace ph) (ha : Adds ph s.w w) : Kid C S s { s with w := w } := by
  refine ⟨le_rfl, List.prefix_rfl, fun _ _ => rfl, fun hb => ⟨⟨fun n i d hm => ?_, hb.own, hb.conts, hb.told⟩, fun _ _ hp => .inl hp⟩⟩
  rcases ha n i d hm with hm | hm
  · exact hb.procs n i d hm
  · refine ⟨fun hr => ?_, fun m c hc => ?_⟩
    · obtain ⟨f, rfl, hf⟩ := hm.1 hr
      exact ⟨f, hp.1, hf, hp.2⟩
    · rw [hm.2] at hc; cases hc

theorem child_localRun {name : String} {ph : Ask} {o : Out Mach YV Unit} (hw : Witness C S tr s.w) (hp : AskNow S s.trace ph) (ho : Fires C ph s.w o) :
    Kid C S s (localRun name o s).1 ∧ ∀ r, (localRun name o s).2 = .ok r → ChildRes C S (localRun name o s).1.trace (localRun name o s).1.w r := by
  cases o with
  | yield w y k =>
    obtain ⟨h1, h2, ph', h3, h4⟩ := ho
    have hset : Kid C S s { s with w := w } := kid_adds hp h1
    cases y with
    | ev e =>
      have heq : localRun name (.yield w (.ev e) k) s = (match timeout (e.time - round4 s.now) { s with w := w } with
        | (s', .ok t) => (s', .ok (.wait t (.localWait name e k)))
        | (s', .error x) => (s', .error x)) := by
        show SimM.bind (timeout (e.time - round4 s.now)) (fun t => pure (Res.wait t (.localWait name e k))) { s with w := w } = _
        unfold SimM.bind
        rcases timeout (e.time - round4 s.now) { s with w := w } with ⟨s2, x | t⟩ <;> rfl
      have h5 := effy_timeout (C := C) (S := S) (d := e.time - round4 s.now) { s with w := w }
      rw [heq]
      rcases ht : timeout (e.time - round4 s.now) { s with w := w } with ⟨s2, x | t⟩
      · rw [ht] at h5
        exact ⟨kid_trans hset h5.kid, fun r hr => by cases hr⟩
      · have hs2 : s2.trace = s.trace ∧ s2.w = w := by
          have := congrArg Prod.fst ht
          subst this
          unfold timeout
          split <;> exact ⟨rfl, rfl⟩
        rw [ht] at h5
        refine ⟨kid_trans hset h5.kid, fun r hr => ?_⟩
        cases hr
        show RulePt C S s2.trace s2.w (.localWait name e k)
        rw [hs2.1, hs2.2]
        refine ⟨h2, ph', ?_, h4⟩
        rcases h3 with rfl | ⟨rfl, f, rfl, hf⟩ | ⟨f, rfl, hf, he⟩
        · cases ph' with
          | none => trivial
          | tested f => exact hp
          | fired f => exact ⟨hp.1, .inr hp.2⟩
        · exact hw.G f hf
        · refine ⟨?_, .inl (by cases he; rfl)⟩
          rcases hf with rfl | ⟨rfl, hf⟩
          · exact hp
          · exact hw.G f hf
    | cont d => exact ⟨hset, fun r hr => by cases hr; exact fun d' hd => by cases hd; exact rooted_plain h2⟩
    | procs => exact ⟨hset, fun r hr => by cases hr; exact fun d' hd => by cases hd⟩
    | nothing => exact ⟨hset, fun r hr => by cases hr; exact fun d' hd => by cases hd⟩
  | ret w r => exact ⟨kid_adds hp ho, fun r hr => by cases hr; exact fun d' hd => by cases hd⟩
  | raise w x => exact ⟨kid_adds hp ho, fun r hr => by cases hr⟩

theorem child_code {pt : Pt} {x : Except PyErr SVal} (hw : Witness C S s.trace s.w) (hpt : RulePt C S s.trace s.w pt) :
    Kid C S s (code C pt x s).1 ∧ ∀ r, (code C pt x s).2 = .ok r → ChildRes C S (code C pt x s).1.trace (code C pt x s).1.w r := by
  cases pt with
  | localNew name g =>
    obtain ⟨t, rfl⟩ := hpt
    rcases x with x | v
    · exact ⟨(eff_refl s).kid, fun r hr => by cases hr⟩
    · exact child_localRun (name := name) hw (ph := .none) trivial (fires_procedural C t s.w)
  | localWait name e k =>
    obtain ⟨h1, ph, h2, h3⟩ := hpt
    show Kid C S s (localResume name e k x s).1 ∧ ∀ r, (localResume name e k x s).2 = .ok r → ChildRes C S (localResume name e k x s).1.trace (localResume name e k x s).1.w r
    unfold localResume
    split
    · exact ⟨(eff_refl s).kid, fun r hr => by cases hr; exact fun d' hd => by cases hd⟩
    · exact ⟨(eff_refl s).kid, fun r hr => by cases hr⟩
    · have e1 : Eff C S s (printEvent e s).1 := eff_print fun _ r hr => by rw [h1] at hr; cases hr
      have e2 := eff_trans e1 (effy_activateProc (C := C) (S := S) (e := e) _)
      have e3 := eff_trans e2 (effy_envInteraction (C := C) (S := S) _)
      have hp1 : AskNow S (printEvent e s).1.trace ph := by
        cases ph with
        | none => trivial
        | tested f => exact h2
        | fired f =>
          refine ⟨h2.1, ?_⟩
          rcases h2.2 with rfl | h
          · exact ⟨(s.now, _), List.mem_append_right _ (.head _), rfl⟩
          · exact hasFired_mono e1.trace h
      have hp3 : AskNow S (envInteraction (activateProc e (printEvent e s).1).1).1.trace ph := by
        have h5 := (eff_trans (effy_activateProc (C := C) (S := S) (e := e) (printEvent e s).1) (effy_envInteraction (C := C) (S := S) _)).trace
        cases ph with
        | none => trivial
        | tested f => exact hp1
        | fired f => exact ⟨hp1.1, hasFired_mono h5 hp1.2⟩
      have hw3 : Witness C S s.trace (envInteraction (activateProc e (printEvent e s).1).1).1.w := witness_same (unpressed_envInteraction _) (by rw [w_activateProc, w_print]; exact hw)
      have hrun := child_localRun (name := name) hw3 hp3 (h3 _ e3.own)
      have hpr : (printEvent e s).2 = .ok () := by rcases printEvent_cases e with ⟨_, hu⟩ | ⟨_, hu⟩ <;> rw [hu] <;> rfl
      have hstep : ∀ {A B : Type} (m : SimM A) (f : A → SimM B) (s : Sim), (∃ a, (m s).2 = .ok a ∧ (m >>= f) s = f a (m s).1) ∨ ((m >>= f) s).1 = (m s).1 ∧ ∃ x, ((m >>= f) s).2 = .error x := by
        intro A B m f s
        show (∃ a, (m s).2 = .ok a ∧ (SimM.bind m f) s = f a (m s).1) ∨ ((SimM.bind m f) s).1 = (m s).1 ∧ ∃ x, ((SimM.bind m f) s).2 = .error x
        unfold SimM.bind
        rcases m s with ⟨s1, x | a⟩
        · exact .inr ⟨rfl, x, rfl⟩
        · exact .inl ⟨a, rfl, rfl⟩
      have hfail : ∀ (q : Sim × Except PyErr Res) (s1 : Sim), Eff C S s s1 → q.1 = s1 ∧ (∃ x, q.2 = .error x) → Kid C S s q.1 ∧ ∀ r, q.2 = .ok r → ChildRes C S q.1.trace q.1.w r := fun q s1 he h => by
        obtain ⟨rfl, x, hx⟩ := h
        exact ⟨he.kid, fun r hr => by rw [hx] at hr; cases hr⟩
      rcases hstep (printEvent e) (fun _ => do activateProc e; envInteraction; let w ← SimM.get Sim.w; localRun name (k w) : Unit → SimM Res) s with ⟨_, _, h⟩ | h
      · rw [h]
        rcases hstep (activateProc e) (fun _ => do envInteraction; let w ← SimM.get Sim.w; localRun name (k w) : Unit → SimM Res) (printEvent e s).1 with ⟨_, _, h⟩ | h
        · rw [h]
          rcases hstep envInteraction (fun _ => do let w ← SimM.get Sim.w; localRun name (k w) : Unit → SimM Res) (activateProc e (printEvent e s).1).1 with ⟨_, _, h⟩ | h
          · rw [h]
            exact ⟨kid_trans e3.kid hrun.1, hrun.2⟩
          · exact hfail _ _ e3 h
        · exact hfail _ _ e2 h
      · exact hfail _ _ e1 h
  | _ => exact hpt.elim

/-! ## Running a process -/

theorem asks_resume {pt : Pt} {x : Except PyErr SVal} (h : Asks C S c s) (hr : Run s) (hw : Witness C S s.trace s.w) (hp : s.points p = some pt) (hx : ∀ d, x = .ok (.cont d) → Rooted S s.trace d)
    (hv : x = .ok .procs → (s.events (s.target p)).value = some (.ok .procs)) : ∃ c', Asks C S c' (s.resume C p x) ∧ s.trace <+: (s.resume C p x).trace := by
  rw [resume_eq C hp]
  by_cases hc : p = c
  · subst hc
    obtain ⟨h1, h2⟩ := child_code (x := x) hw (h.child pt hp)
    have hb := asksBut_kid h.toAsksBut h1
    have hmain : ∀ pt', (code C pt x s).1.points 2 = some pt' → (pt' = .procFirst ∨ pt' = .procAgain) ∧ (code C pt x s).1.target 2 = p := fun pt' hpt' => by
      rcases h.main pt' (kid_old h1 h.base h.two hpt') with ⟨g1, g2⟩ | ⟨_, g2⟩
      · exact ⟨g1, (h1.target 2 h.two).trans g2⟩
      · rw [hp] at g2; cases g2
    rcases hcode : code C pt x s with ⟨s1, e | r⟩
    · rw [hcode] at hb h1
      exact ⟨p, asks_ends hb (fun hne => absurd rfl hne) (fun d hd => by cases hd), h1.trace⟩
    · rw [hcode] at hb h2 hmain h1
      have h2 := h2 r rfl
      cases r with
      | wait ev pt' => exact ⟨p, asks_child hb h2 hmain, h1.trace⟩
      | done v => exact ⟨p, asks_ends hb (fun hne => absurd rfl hne) (fun d hd => by cases hd; exact h2 d rfl), h1.trace⟩
  · have hm := h.pts p pt hp hc
    by_cases hn : ∀ v, x = .ok v → pt ≠ .procNew ∧ pt ≠ .procSpin 0
    · obtain ⟨h1, h2⟩ := effR_code hm hw hx hn h.base
      have hs := asks_eff h h1
      have h2' : ∀ ev pt', (code C pt x s).2 = .ok (.wait ev pt') → p = 2 → (pt' = .procNew ∨ pt'.resting) ∧ (code C pt x s).1.points c = Option.none := fun ev pt' hres h2 => by
        subst h2
        have hnone : s.points c = Option.none := by
          rcases h.main pt hp with ⟨g1, g2⟩ | ⟨_, g2⟩
          · cases hpc : s.points c with
            | none => rfl
            | some ptc =>
              exfalso
              have hlive := hr.1.live c (by rw [hpc]; rfl)
              rcases x with x | v
              · rcases g1 with rfl | rfl <;> cases hres
              · cases v with
                | procs => have := hv rfl; rw [g2, hlive] at this; cases this
                | nothing => rcases g1 with rfl | rfl <;> cases hres
                | cont d => rcases g1 with rfl | rfl <;> cases hres
          · exact g2
        refine ⟨.inr ?_, ?_⟩
        · have hd : pt = .procFirst ∨ pt = .procAgain ∨ pt.resting := by
            rcases h.main pt hp with ⟨g1 | g1, _⟩ | ⟨g1 | g1, _⟩
            · exact .inl g1
            · exact .inr (.inl g1)
            · rcases x with x | v
              · subst g1; cases hres
              · exact absurd g1 (hn v rfl).1
            · exact .inr (.inr g1)
          have hz : pt ≠ .procSpin 0 := fun he => by
            rcases x with x | v
            · subst he; cases hres
            · exact (hn v rfl).2 he
          obtain ⟨⟨_, _, _, hq, hrest⟩, _⟩ := (doing_main C hr hd hz).2.2 _ hres
          cases hq
          exact hrest
        · cases hpc : (code C pt x s).1.points c with
          | none => rfl
          | some ptc => rw [kid_old h1.kid h.base h.lt hpc] at hnone; cases hnone
      rcases hcode : code C pt x s with ⟨s1, e | r⟩
      · rw [hcode] at hs h1
        exact ⟨c, asks_ends hs.toAsksBut (fun _ => hs.child) (fun d hd => by cases hd), h1.trace⟩
      · rw [hcode] at hs h2 h2' h1
        have h2 := h2 r rfl
        cases r with
        | wait ev pt' => exact ⟨c, asks_waits hs hc h2 (h2' ev pt' rfl), h1.trace⟩
        | done v => exact ⟨c, asks_ends hs.toAsksBut (fun _ => hs.child) (fun d hd => by cases hd; exact h2 d rfl), h1.trace⟩
    · -- a new cycle
      have hcyc : ∃ v pt', x = .ok v ∧ code C pt (.ok v) = procCycle C pt' ∧ (pt' = .procFirst ∨ pt' = .procAgain) ∧ p = 2 ∧ s.points c = Option.none := by
        by_contra hno
        refine hn fun v hx => ⟨fun he => hno ?_, fun he => hno ?_⟩
        · subst he
          cases hm
          refine ⟨v, .procFirst, hx, rfl, .inl rfl, rfl, ?_⟩
          rcases h.main _ hp with ⟨g | g, _⟩ | ⟨_, g⟩
          · cases g
          · cases g
          · exact g
        · subst he
          cases hm
          refine ⟨v, .procAgain, hx, rfl, .inr rfl, rfl, ?_⟩
          rcases h.main _ hp with ⟨g | g, _⟩ | ⟨_, g⟩
          · cases g
          · cases g
          · exact g
      obtain ⟨v, pt', rfl, hcode, hpt', rfl, hnone⟩ := hcyc
      rw [hcode, procCycle_eq]
      refine ⟨s.next, ?_, List.prefix_rfl⟩
      show Asks C S s.next ((process (.localNew procName (genProcedural C s.now)) s).1.waits 2 s.next pt')
      have hb : Base S (process (.localNew procName (genProcedural C s.now)) s).1 := by
        refine base_same (s := s) rfl rfl rfl (fun ev d hd => ?_) h.base
        have h1 := noConts_alloc (E := ⟨some (.ok .nothing), false, some [.resume s.next]⟩) (fun _ h => by cases h) (s.alloc ⟨Option.none, false, some []⟩) ev d hd
        exact noConts_alloc (E := ⟨Option.none, false, some []⟩) (fun _ h => by cases h) s ev d h1
      have hpts : ∀ q, ((process (.localNew procName (genProcedural C s.now)) s).1.waits 2 s.next pt').points q = if q = 2 then some pt' else if q = s.next then some (.localNew procName (genProcedural C s.now)) else s.points q := fun q => rfl
      have htgt : ((process (.localNew procName (genProcedural C s.now)) s).1.waits 2 s.next pt').target 2 = s.next := by
        show fset (fset s.target s.next (s.next + 1)) 2 s.next 2 = s.next
        exact fset_same _ _ _
      refine ⟨⟨base_waits hb, fun q pt'' hq hqc => ?_, ?_, ?_, ?_, fun pt'' hq => ?_⟩, fun pt'' hq => ?_⟩
      · rw [hpts] at hq
        by_cases he : q = 2
        · subst he
          rw [if_pos rfl] at hq
          cases hq
          rcases hpt' with rfl | rfl <;> rfl
        · rw [if_neg he, if_neg hqc] at hq
          refine h.pts q pt'' hq fun he => ?_
          subst he
          rw [hnone] at hq; cases hq
      · show s.next < s.next + 1 + 1
        omega
      · show 2 < s.next + 1 + 1
        have := h.two
        omega
      · have := h.two
        omega
      · rw [hpts, if_pos rfl] at hq
        cases hq
        exact .inl ⟨hpt', htgt⟩
      · rw [hpts, if_neg (by have := h.two; omega), if_pos rfl] at hq
        cases hq
        exact ⟨_, rfl⟩

/-! ## Callbacks -/

theorem noConts_value (h : ∀ ev, (s'.events ev).value = (s.events ev).value) : NoConts s s' := fun ev d hd => by rw [h] at hd; exact hd

theorem unmoved_thin (h : Thin s s') (h1 : s'.w = s.w) (h2 : s'.started = s.started) (h3 : s'.trace = s.trace) : Unmoved s s' :=
  ⟨h.next.ge, h.points, h.target, h2, h3, by rw [h1], by rw [h1]; exact own_refl _, noConts_value h.value⟩

theorem unmoved_trigger {ev : ℕ} {v : Except PyErr SVal} (hv : ∀ d, v ≠ .ok (.cont d)) : Unmoved s (s.trigger ev v) :=
  ⟨le_rfl, rfl, rfl, rfl, rfl, rfl, own_refl _, noConts_trigger hv s⟩

theorem asks_callback {ev : ℕ} {v : Except PyErr SVal} {cb : Callback} {l : List Callback} (h : Asks C S c s) (hg : Good C.ruleFiring s) (hp : Pending ev v (cb :: l) s)
    (hw : Witness C S s.trace s.w) (hx : ∀ d, v = .ok (.cont d) → Rooted S s.trace d) : ∃ c', Asks C S c' (callback C ev v s cb) ∧ s.trace <+: (callback C ev v s cb).trace := by
  cases cb with
  | resume p =>
    obtain ⟨_, ht, pt, hpt, _⟩ := hp.res p (.head _)
    rcases v with x | v
    · exact asks_resume (asks_unmoved h (unmoved_thin (thin_defuse (ev := ev)) rfl rfl rfl)) (good_defuse (ev := ev) hg).1 hw hpt (fun d hd => by cases hd) fun hd => by cases hd
    · exact asks_resume h hg.1 hw hpt hx fun hd => by rw [ht, ← hd]; exact hp.val hd
  | interrupt p =>
    obtain ⟨rfl, _⟩ := hp.intr p (.head _)
    simp only [callback]
    split
    · exact ⟨c, h, List.prefix_rfl⟩
    · have h1 := asks_unmoved h (unmoved_thin (thin_drop (ev := s.target p) (cb := .resume p) (by simp)) rfl rfl rfl)
      cases hpt : s.points p with
      | none =>
        have : (s.dropCallback (s.target p) (.resume p)).resume C p (.error .interrupt) = s.dropCallback (s.target p) (.resume p) := by
          unfold Sim.resume
          have : (s.dropCallback (s.target p) (.resume p)).points p = Option.none := hpt
          rw [this]
        rw [this]
        exact ⟨c, h1, List.prefix_rfl⟩
      | some pt => exact asks_resume h1 (good_drop (by simp) hg).1 hw (pt := pt) hpt (fun d hd => by cases hd) fun hd => by cases hd
  | check d =>
    simp only [callback]
    split
    · exact ⟨c, h, List.prefix_rfl⟩
    · rcases v with x | v
      · exact ⟨c, asks_unmoved h (unmoved_trans (unmoved_thin (thin_defuse (ev := ev)) rfl rfl rfl) (unmoved_trigger fun d hd => by cases hd)), List.prefix_rfl⟩
      · exact ⟨c, asks_unmoved h (unmoved_trigger fun d hd => by cases hd), List.prefix_rfl⟩
  | build d a b => exact ⟨c, asks_unmoved h (unmoved_trans (unmoved_thin (thin_drop (ev := a) (cb := .check d) (by simp)) rfl rfl rfl) (unmoved_thin (thin_drop (ev := b) (cb := .check d) (by simp)) rfl rfl rfl)), List.prefix_rfl⟩
  | stop => exact ⟨c, h, List.prefix_rfl⟩

theorem asks_callbacks {ev : ℕ} {v : Except PyErr SVal} {tr : List (ℚ × Ev)} (hx : ∀ d, v = .ok (.cont d) → Rooted S tr d) : ∀ (l : List Callback) {s : Sim} {c : ℕ}, tr <+: s.trace → Asks C S c s → Good C.ruleFiring s → Pending ev v l s →
    (∀ l1 l2, l = l1 ++ l2 → Witness C S (l1.foldl (callback C ev v) s).trace (l1.foldl (callback C ev v) s).w) → ∃ c', Asks C S c' (l.foldl (callback C ev v) s)
  | [], s, c, _, h, _, _, _ => ⟨c, h⟩
  | cb :: l, s, c, ht, h, hg, hp, hw => by
    obtain ⟨c1, h1, h2⟩ := asks_callback h hg hp (hw [] _ rfl) fun d hd => rooted_mono (wider_refl S) ht (hx d hd)
    obtain ⟨a, b, _⟩ := good_callback C hg hp
    exact asks_callbacks hx l (ht.trans h2) h1 a b fun l1 l2 hl => hw (cb :: l1) l2 (by rw [hl]; rfl)

/-! ## Steps -/

variable {w : Mach} {args : Option EnvArgs} {t : ℚ}

/-- What is known in a state. -/
def known (C : Cfg) (w : Mach) (args : Option EnvArgs) (t : ℚ) (s : Sim) : Sources := ⟨HeldBefore C w args t s, fun f n v c => FoundBefore C w args t s f fun m => Obtains C m n v f.bv c⟩

/-- What is known after a step from `s`. -/
def learned (C : Cfg) (w : Mach) (args : Option EnvArgs) (t : ℚ) (s : Sim) : Sources where
  G f := HeldBefore C w args t s f ∨ ∃ m, Moment C s m ∧ CanFire C m.w f
  K f n v c := FoundBefore C w args t s f (fun m => Obtains C m n v f.bv c) ∨ ((HeldBefore C w args t s f ∨ ∃ m, Moment C s m ∧ CanFire C m.w f) ∧
    ∃ m, Moment C s m ∧ HasFired m.trace f ∧ Obtains C m.w n v f.bv c)

theorem goesOn_trans {a b c : Sim} (h1 : GoesOn C a b) (h2 : GoesOn C b c) : GoesOn C a c := by
  induction h2 with
  | refl => exact h1
  | step _ hs ih => exact ih.step hs
  | stop t _ ih => exact ih.stop t
  | compile _ ih => exact ih.compile

theorem wider_goesOn (h : GoesOn C s s') : Wider (known C w args t s) (known C w args t s') := by
  refine ⟨fun f hf => ?_, fun f n v c hf => ?_⟩
  · obtain ⟨s1, m, s2, h1, h2, h3, h4, h5⟩ := hf
    exact ⟨s1, m, s2, h1, h2, h3, h4, goesOn_trans h5 h⟩
  · obtain ⟨s1, m1, s2, m2, s3, h1, h2, h3, h4, h5, h6, h7, h8, h9⟩ := hf
    exact ⟨s1, m1, s2, m2, s3, h1, h2, h3, h4, h5, h6, h7, h8, goesOn_trans h9 h⟩

theorem wider_learned : Wider (known C w args t s) (learned C w args t s) := ⟨fun _ h => .inl h, fun _ _ _ _ h => .inl h⟩

theorem wider_step (hr : Reachable C w args t s) (hs : Stepped.leads (s.step C) s') : Wider (learned C w args t s) (known C w args t s') := by
  have hgo : GoesOn C s s' := (GoesOn.refl s).step hs
  have hG : ∀ f, (HeldBefore C w args t s f ∨ ∃ m, Moment C s m ∧ CanFire C m.w f) → HeldBefore C w args t s' f := fun f hf => by
    rcases hf with hf | ⟨m, h1, h2⟩
    · exact (wider_goesOn hgo).G f hf
    · exact ⟨s, m, s', hr, h1, h2, hs, .refl _⟩
  refine ⟨hG, fun f n v c hf => ?_⟩
  rcases hf with hf | ⟨hf, m, h1, h2, h3⟩
  · exact (wider_goesOn hgo).K f n v c hf
  · rcases hf with ⟨s1, m1, s2, g1, g2, g3, g4, g5⟩ | ⟨m1, g1, g2⟩
    · exact ⟨s1, m1, s, m, s', g1, g2, g3, goesOn_trans ((GoesOn.refl s1).step g4) g5, h1, h2, h3, hs, .refl _⟩
    · exact ⟨s, m1, s, m, s', hr, g1, g2, .refl _, h1, h2, h3, hs, .refl _⟩

theorem witness_moment {m : Sim} (hm : Moment C s m) : Witness C (learned C w args t s) m.trace m.w :=
  ⟨fun _ hf => .inr ⟨m, hm, hf⟩, fun _ _ _ _ hg hf hi => .inr ⟨hg, m, hm, hf, hi⟩⟩

theorem unmoved_taken (s : Sim) (en : Entry) (q : List Entry) : Unmoved s (s.taken en q) := unmoved_thin (thin_taken s en q) rfl rfl rfl

theorem asks_called {en : Entry} {q : List Entry} (hf : Fine C.ruleFiring s) (h : Asks C (known C w args t s) c s) (hq : s.queue = en :: q) (hstop : .stop ∉ s.cbs en.ev) :
    ∃ c', Asks C (learned C w args t s) c' (s.called C en q) := by
  have h1 := asks_unmoved (asks_wider wider_learned h) (unmoved_taken s en q)
  have hft := fine_taken hf hq
  unfold Sim.called
  cases hcb : (s.events en.ev).callbacks with
  | none => rw [show s.cbs en.ev = [] from by simp [Sim.cbs, hcb]]; exact ⟨c, h1⟩
  | some l =>
    have hl : s.cbs en.ev = l := by simp [Sim.cbs, hcb]
    rcases hf.1.grid en (by rw [hq]; exact .head _) with hg | hg
    · refine asks_callbacks (tr := s.trace) (fun d hd => ?_) (s.cbs en.ev) List.prefix_rfl h1 ⟨⟨hft.1, hg⟩, hft.2⟩ (pending_taken hf.1 hq) fun l1 l2 hl' => witness_moment ⟨en, q, l1, l2, hq, ?_, rfl⟩
      · cases hv : (s.events en.ev).value with
        | none => rw [hv] at hd; cases hd
        | some u => rw [hv] at hd; exact rooted_mono wider_learned List.prefix_rfl (h.base.conts en.ev d (by rw [hv]; exact congrArg some hd))
      · rw [hcb, ← hl, hl']
    · rw [show s.cbs en.ev = [] from by simp [Sim.cbs, hg.resolve_left hstop]]; exact ⟨c, h1⟩

theorem asks_step (hr : Reachable C w args t s) (h : Asks C (known C w args t s) c s) (hs : Stepped.leads (s.step C) s') : ∃ c', Asks C (known C w args t s') c' s' := by
  have hw := wider_step hr hs
  have hf := fine_reachable hr
  rcases step_cases (C := C) (s := s) rfl with ⟨h0, _⟩ | ⟨en, q, hq, ⟨_, h0⟩ | ⟨hst, h0 | ⟨x, h0⟩⟩⟩ <;> rw [h0] at hs <;> rcases hs with hs | hs | ⟨_, hs⟩ <;> cases hs
  · exact ⟨c, asks_wider hw (asks_wider wider_learned (asks_unmoved h (unmoved_taken s en q)))⟩
  · obtain ⟨c', h'⟩ := asks_called hf h hq hst
    exact ⟨c', asks_wider hw h'⟩
  · obtain ⟨c', h'⟩ := asks_called hf h hq hst
    exact ⟨c', asks_wider hw h'⟩

theorem own_compileIn (C : Cfg) (w : Mach) : Own w (compileIn C w).1 := by
  have key : ∀ r1 r2 sv n r, alook n w.rules = some r → ∃ r', alook n (compileRules C.P w.reg C.up w.rules r1 r2 sv w.cbufs).1 = some r' ∧ r'.body = r.body := by
    intro r1 r2 sv n r hr
    unfold compileRules
    rcases hr1 : alook r1 w.rules with _ | x1
    · exact ⟨r, hr, rfl⟩
    rcases hr2 : alook r2 w.rules with _ | x2
    · exact ⟨r, hr, rfl⟩
    dsimp only
    rcases hnew : newRule C.P w.reg r2 x1.body x2.body sv w.cbufs with e | _ | new
    · exact ⟨r, hr, rfl⟩
    · exact ⟨r, hr, rfl⟩
    · dsimp only
      rcases ho : nameLoop C.P.H C.up r1 r2 x1.utility new w.rules (w.rules.length + 1) 0 with _ | ⟨rules', out⟩
      · exact ⟨r, hr, rfl⟩
      · obtain ⟨i, _, _, h⟩ := nameLoop_some ho
        show ∃ r', alook n rules' = some r' ∧ _
        rcases h with ⟨h1, rfl, _⟩ | ⟨r0, h1, ⟨e, _, rfl, _⟩ | ⟨_, rfl, _⟩⟩
        · refine ⟨r, ?_, rfl⟩
          rw [alook_aset, if_neg fun he => by rw [he, h1] at hr; cases hr]
          exact hr
        · exact ⟨r, hr, rfl⟩
        · unfold relearn
          split
          · rw [alook_aset]
            split
            · rename_i he
              rw [he, h1] at hr
              cases hr
              exact ⟨_, rfl, rfl⟩
            · exact ⟨r, hr, rfl⟩
          · exact ⟨r, hr, rfl⟩
  refine ⟨(compileIn_rest C w).1, fun n r hr => ?_⟩
  unfold compileIn
  split
  · rename_i r1 r2 sv _ _
    have := key r1 r2 sv n r hr
    dsimp only
    split <;> exact this
  · exact ⟨r, hr, rfl⟩

theorem unmoved_compile (s : Sim) : Unmoved s (compileAtEnd C s).1 := by
  have h1 := own_compileIn C s.w
  obtain ⟨_, h2, _⟩ := compileIn_rest C s.w
  unfold compileAtEnd
  split
  · rcases hci : compileIn C s.w with ⟨w', x | o⟩ <;> rw [hci] at h1 h2 <;> exact ⟨le_rfl, rfl, rfl, rfl, rfl, h2, h1, noConts_refl s⟩
  · exact unmoved_refl s

theorem unmoved_setStop (s : Sim) (q : ℚ) : Unmoved s (s.setStop q).1 := by
  unfold Sim.setStop
  split
  · exact unmoved_refl s
  · exact ⟨Nat.le_succ _, rfl, rfl, rfl, rfl, rfl, own_refl _, noConts_alloc (E := ⟨some (.ok .nothing), false, some [.stop]⟩) (fun _ h => by cases h) s⟩

/-! ## The beginning -/

theorem effy_initExtra (l : List String) : Effy C S (initExtra l) := by
  induction l with
  | nil => exact effy_pure
  | cons n r ih =>
    unfold initExtra
    split
    · exact ih
    · refine effy_bind (effy_process fun _ _ => trivial) fun _ => effy_bind effy_newEvent fun _ => effy_bind ?_ fun _ => ih
      effset

theorem asks_start (hp : ∀ n i d, .gen n i d ∈ w.procs → ¬ ByRule d ∧ d.kept = Option.none) : Asks C S 0 (process .procNew (Sim.blank w args t)).1 := by
  have hpts : ∀ q, (process .procNew (Sim.blank w args t)).1.points q = if q = 2 then some .procNew else Option.none := fun q => rfl
  have hb : Base S (Sim.blank w args t) := by
    refine ⟨fun n i d hm => due_rooted (rooted_plain (hp n i d hm)), fun l hl n i d hm => ?_, fun ev d hd => ?_, fun l1 q e l2 he => ?_⟩
    · cases hl; cases hm
    · cases hd
    · have := congrArg List.length he
      simp [Sim.blank] at this
  have he : Eff C S (Sim.blank w args t) (process .procNew (Sim.blank w args t)).1 := eff_process fun _ => rfl
  refine ⟨⟨(he.base hb).1, fun p pt hp _ => ?_, by show 0 < 2 + 2; omega, by show 2 < 2 + 2; omega, by omega, fun pt hpt => ?_⟩, fun pt hpt => ?_⟩
  · rw [hpts] at hp
    split at hp
    · rename_i h; subst h; cases hp; rfl
    · cases hp
  · rw [hpts] at hpt
    cases hpt
    exact .inr ⟨.inl rfl, by rw [hpts]; rfl⟩
  · rw [hpts] at hpt; cases hpt

theorem asks_init (hp : ∀ n i d, .gen n i d ∈ w.procs → ¬ ByRule d ∧ d.kept = Option.none) : Asks C S 0 (Sim.init w args t) := by
  have h1 := asks_start (C := C) (S := S) (args := args) (t := t) hp
  have h2 : Effy C S (do initExtra (w.bufs.map Prod.fst); if w.env.isSome then do let _ ← process .envNew; pure () else pure () : SimM Unit) :=
    effy_bind (effy_initExtra _) fun _ => by
      split
      · exact effy_bind (effy_process fun _ _ => trivial) fun _ => effy_pure
      · exact effy_pure
  exact asks_eff h1 (h2 _)

/-! ## All states -/

theorem asks_reachable (hp : ∀ n i d, .gen n i d ∈ w.procs → ¬ ByRule d ∧ d.kept = Option.none) (h : Reachable C w args t s) : ∃ c, Asks C (known C w args t s) c s := by
  induction h with
  | init => exact ⟨0, asks_init hp⟩
  | @stop s1 s2 q r hr hs ih =>
    obtain ⟨c, ih⟩ := ih
    have : s2 = (s1.setStop q).1 := by rw [hs]
    subst this
    exact ⟨c, asks_wider (wider_goesOn ((GoesOn.refl s1).stop q)) (asks_unmoved ih (unmoved_setStop s1 q))⟩
  | step hr hs ih => obtain ⟨c, ih⟩ := ih; exact asks_step hr ih (.inl hs)
  | stopped hr hs ih => obtain ⟨c, ih⟩ := ih; exact asks_step hr ih (.inr (.inl hs))
  | raised hr hs ih => obtain ⟨c, ih⟩ := ih; exact asks_step hr ih (.inr (.inr ⟨_, hs⟩))
  | @compile s1 s2 r hr hs ih =>
    obtain ⟨c, ih⟩ := ih
    have : s2 = (compileAtEnd C s1).1 := by rw [hs]
    subst this
    exact ⟨c, asks_wider (wider_goesOn (GoesOn.refl s1).compile) (asks_unmoved ih (unmoved_compile s1))⟩

end Verif
