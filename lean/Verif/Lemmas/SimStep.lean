import Verif.Lemmas.Stages
/-! # Steps of simulations keep the invariants -/
namespace Verif
open Verif.Spec

/-! ## The cycle of the rules -/

/-- The process of one cycle, in the stage `st`. -/
def LegalPt (rf : ℚ) (st : Stage) : Pt → Prop
  | .localNew name g => (name = procName ∧ st = .idle) ∧ (∀ w, (g w).Yields GridY) ∧ ∀ w, Stages rf (fun st _ => st = .idle) st (g w)
  | .localWait name e k => name = procName ∧ ∃ st', (st.next rf e.time e.act = some st' ∧ ∀ t ∈ st.due rf, e.time = t) ∧ ∀ w, Stages rf (fun st _ => st = .idle) st' (k w)
  | _ => False

/-- Everything but process `c`: only this one reports about rules, and process number 2 waits for it, or waits for the next cycle. -/
structure RulesBut (rf : ℚ) (s : Sim) (st : Stage) (c : ℕ) : Prop where
  main_lt : 2 < s.next
  c_lt : c < s.next
  ne : c ≠ 2
  stage : stageOf rf (timedReports s.trace) = some st
  mods : ∀ p pt, s.points p = some pt → p ≠ c → Modular p pt
  main : ∀ pt, s.points 2 = some pt → ((pt = .procFirst ∨ pt = .procAgain) ∧ s.target 2 = c) ∨
    ((pt = .procNew ∨ pt.resting) ∧ st = .idle ∧ s.points c = Option.none)

/-- The invariant for the cycle of the rules: `st` is its stage, `c` the last process that went through it. -/
structure Rules₂ (rf : ℚ) (s : Sim) (st : Stage) (c : ℕ) : Prop extends RulesBut rf s st c where
  child : ∀ pt, s.points c = some pt → LegalPt rf st pt
  ended : s.points c = Option.none → (s.events c).value = some (.ok .procs) → st = .idle
  over : ∀ pt, s.points 2 = some pt → (pt = .procFirst ∨ pt = .procAgain) → s.points c = Option.none → (s.events c).value.isSome

/-- In some stage. -/
def Cycling (rf : ℚ) (s : Sim) : Prop := ∃ st c, Rules₂ rf s st c

variable {rf : ℚ} {s s1 s' : Sim} {st : Stage} {c p : ℕ}

theorem rulesBut_full (h : RulesBut rf s st c) (hf : Full s s') : RulesBut rf s' st c := by
  refine ⟨h.main_lt.trans_le hf.1.next, h.c_lt.trans_le hf.1.next, h.ne, by rw [hf.2.reports]; exact h.stage, fun p pt hp hc => ?_, fun pt hp => ?_⟩
  · rcases hf.2.newp p pt hp with hp | hp
    · exact h.mods p pt hp hc
    · exact hp.2
  · rw [hf.1.points 2 h.main_lt] at hp
    rw [hf.1.target 2 h.main_lt, hf.1.points c h.c_lt]
    exact h.main pt hp

theorem rules_full (h : Rules₂ rf s st c) (hf : Full s s') : Rules₂ rf s' st c :=
  ⟨rulesBut_full h.toRulesBut hf, fun pt hp => h.child pt (by rwa [hf.1.points c h.c_lt] at hp),
    fun hp hv => h.ended (by rwa [hf.1.points c h.c_lt] at hp) (hf.2.procs c hv), fun pt h2 hpt hp => by
      rw [hf.1.points 2 h.main_lt] at h2
      rw [hf.1.points c h.c_lt] at hp
      obtain ⟨v, hv⟩ := Option.isSome_iff_exists.1 (h.over pt h2 hpt hp)
      rw [hf.1.value _ _ hv]; rfl⟩

/-! ## A process has run -/

/-- The process waits for `ev` at `pt`. -/
def Sim.waits (s : Sim) (p ev : ℕ) (pt : Pt) : Sim :=
  ({ s with points := fset s.points p (some pt), target := fset s.target p ev } : Sim).addCallback ev (.resume p)

/-- The process has ended. -/
def Sim.ends (s : Sim) (p : ℕ) (v : Except PyErr SVal) : Sim := ({ s with points := fset s.points p Option.none } : Sim).trigger p v

/-- Nothing wakes the process. -/
def Loose (s : Sim) (p : ℕ) : Prop := ∀ ev, .resume p ∉ s.cbs ev

/-- What happens while process `p` runs. -/
structure Others (p : ℕ) (s s' : Sim) : Prop where
  now : s'.now = s.now
  next : s.next ≤ s'.next
  points : ∀ q < s.next, q ≠ p → s'.points q = s.points q
  target : ∀ q < s.next, q ≠ p → s'.target q = s.target q
  value : ∀ ev v, (s.events ev).value = some v → (s'.events ev).value = some v
  res : ∀ ev q, q ≠ p → q < s.next → .resume q ∈ s'.cbs ev → .resume q ∈ s.cbs ev
  intr : ∀ ev q, ev < s.next → (.interrupt q ∈ s'.cbs ev ↔ .interrupt q ∈ s.cbs ev)
  queue : ∀ en ∈ s.queue, en ∈ s'.queue
  newq : ∀ en ∈ s'.queue, en ∈ s.queue ∨ (s.events en.ev).value = Option.none
  stops : ∀ ev, .stop ∈ s'.cbs ev ↔ .stop ∈ s.cbs ev

theorem others_mild (h : Mild s s') : Others p s s' := by
  refine ⟨h.now, h.next, fun q hq _ => h.points q hq, fun q hq _ => h.target q hq, h.value, fun ev q _ hq hm => ?_, fun ev q hev => mem_of_filter (h.cbs ev hev) rfl, h.queue, h.newq, h.stops⟩
  by_cases hev : ev < s.next
  · exact (mem_of_filter (h.cbs ev hev) rfl).1 hm
  · exact (h.newres ev q (not_lt.1 hev) hm).resolve_left (by omega)

theorem others_trans {a b d : Sim} (h1 : Others p a b) (h2 : Others p b d) : Others p a d :=
  ⟨h2.now.trans h1.now, h1.next.trans h2.next, fun q hq hn => (h2.points q (hq.trans_le h1.next) hn).trans (h1.points q hq hn),
    fun q hq hn => (h2.target q (hq.trans_le h1.next) hn).trans (h1.target q hq hn), fun ev v h => h2.value ev v (h1.value ev v h),
    fun ev q hn hq h => h1.res ev q hn hq (h2.res ev q hn (hq.trans_le h1.next) h), fun ev q hev => (h2.intr ev q (hev.trans_le h1.next)).trans (h1.intr ev q hev),
    fun en h => h2.queue en (h1.queue en h), fun en h => (h2.newq en h).elim (h1.newq en)
      fun hv => .inr (by_contra fun hc => by
        obtain ⟨v, hc⟩ := Option.ne_none_iff_exists'.1 hc
        rw [h1.value _ _ hc] at hv; cases hv), fun ev => (h2.stops ev).trans (h1.stops ev)⟩

theorem loose_mild (h : Mild s s') (hp : p < s.next) (hl : Loose s p) : Loose s' p := by
  intro ev hm
  by_cases hev : ev < s.next
  · exact hl ev ((mem_of_filter (h.cbs ev hev) rfl).1 hm)
  · exact hl ev ((h.newres ev p (not_lt.1 hev) hm).resolve_left (by omega))

theorem points_lt (h : Inv s) {pt : Pt} (hp : s.points p = some pt) : p < s.next := by
  by_contra hc
  rw [(h.fresh p (not_lt.1 hc)).2.2] at hp; cases hp

theorem run_waits {pt0 pt : Pt} {ev : ℕ} (h : Run s) (hp : s.points p = some pt0) (hl : Loose s p) (hpt : PtOk s ev pt) (hn : NoInt s ev) :
    Run (s.waits p ev pt) ∧ Others p s (s.waits p ev pt) := by
  obtain ⟨h, hg⟩ := h
  have hlt := points_lt h hp
  have hcb : ∀ x d, d ∈ (s.waits p ev pt).cbs x → d ∈ s.cbs x ∨ (d = .resume p ∧ x = ev) := fun x d hd => mem_addCallback hd
  have hold : ∀ x d, d ∈ s.cbs x → d ∈ (s.waits p ev pt).cbs x := fun x d hd =>
    mem_addCallback_old (s := ({ s with points := fset s.points p (some pt), target := fset s.target p ev } : Sim)) hd
  have hv : ∀ x, ((s.waits p ev pt).events x).value = (s.events x).value := fun x => value_addCallback _ _ _ _
  have hpts : ∀ q, (s.waits p ev pt).points q = if q = p then some pt else s.points q := fun q => rfl
  have htg : ∀ q, (s.waits p ev pt).target q = if q = p then ev else s.target q := fun q => rfl
  have hq : ∀ x, Quiet s x → Quiet (s.waits p ev pt) x := fun x hx => by
    have hne : x ≠ p := by rintro rfl; rw [hx.2.1] at hp; cases hp
    refine ⟨hx.1, by rw [hpts, if_neg hne]; exact hx.2.1, fun q hq => ?_⟩
    rcases hcb x _ hq with hq | ⟨hq, _⟩
    · exact hx.2.2 q hq
    · cases hq
  have hptok : ∀ x pt', PtOk s x pt' → PtOk (s.waits p ev pt) x pt' := fun x pt' hx => ptOk_move hx fun t _ ht => ⟨by rw [hv]; exact ht.1, ht.2⟩
  refine ⟨⟨⟨h.sorted, h.ahead, fun en hen => (h.grid en hen).imp_right (Or.imp (hold _ _) (none_addCallback (s := ({ s with points := fset s.points p (some pt), target := fset s.target p ev } : Sim)))), fun x q hx => ?_, fun x q => ?_, fun x q hx => ?_, fun x d hx => ?_, fun x hx => ?_, h.known, fun en hen => by rw [hv]; exact h.queued en hen,
    fun q hqq => ?_, fun q pt' hqq => ?_, fun n a ha => hq a (h.act n a ha), hq _ h.proc, hq _ h.env, h.trace, h.order⟩, hg⟩,
    ⟨rfl, le_rfl, fun q _ hne => by rw [hpts, if_neg hne], fun q _ hne => by rw [htg, if_neg hne], fun x v hx => by rw [hv]; exact hx, fun x q hne _ hx => ?_, fun x q _ => ⟨fun hx => ?_, hold x _⟩, fun _ h => h, fun _ h => .inl h, fun x => ⟨fun hx => ?_, hold x _⟩⟩⟩
  · rcases hcb x _ hx with hy | ⟨hy, he⟩
    · have hne : q ≠ p := by rintro rfl; exact hl x hy
      rw [htg, hpts, if_neg hne, if_neg hne]; exact h.res x q hy
    · cases hy; subst he
      rw [htg, hpts, if_pos rfl, if_pos rfl]; exact ⟨rfl, rfl⟩
  · by_cases hx : x = ev
    · subst hx
      rcases cbs_addCallback ({ s with points := fset s.points p (some pt), target := fset s.target p x } : Sim) x (.resume p) with hc | hc
      · change (s.waits p x pt).cbs x = s.cbs x ++ [.resume p] at hc
        rw [hc, List.count_append]
        by_cases hqp : q = p
        · subst hqp
          rw [List.count_eq_zero_of_not_mem (hl x)]; simp
        · rw [List.count_singleton, if_neg (by simpa using fun h => hqp h.symm)]; exact h.once x q
      · change (s.waits p x pt).cbs x = s.cbs x at hc
        rw [hc]; exact h.once x q
    · have : (s.waits p ev pt).cbs x = s.cbs x := cbs_addCallback_other hx
      rw [this]; exact h.once x q
  · rcases hcb x _ hx with hy | ⟨hy, _⟩
    · refine ⟨by rw [hv]; exact (h.intr x q hy).1, fun r hr => ?_, fun hr => ?_⟩
      · rcases hcb x _ hr with hr | ⟨hr, he⟩
        · exact (h.intr x q hy).2.1 r hr
        · subst he; exact hn q hy
      · rcases hcb x _ hr with hr | ⟨hr, he⟩
        · exact (h.intr x q hy).2.2 hr
        · cases hr
    · cases hy
  · rcases hcb x _ hx with hx | ⟨hx, _⟩
    · exact hq d (h.chk x d hx)
    · cases hx
  · have hx : s.next ≤ x := hx
    have hf := h.fresh x hx
    refine ⟨?_, by rw [hv]; exact hf.2.1, by rw [hpts, if_neg (by omega)]; exact hf.2.2⟩
    by_cases he : x = ev
    · subst he; simp [Sim.waits, Sim.addCallback, fset, hf.1]
    · simp [Sim.waits, Sim.addCallback, fset, he, hf.1]
  · rw [hpts] at hqq
    rw [hv]
    by_cases hne : q = p
    · subst hne; exact h.live q (by rw [hp]; rfl)
    · rw [if_neg hne] at hqq; exact h.live q hqq
  · rw [hpts] at hqq
    rw [htg]
    by_cases hne : q = p
    · rw [if_pos hne] at hqq ⊢; cases hqq; exact hptok _ _ hpt
    · rw [if_neg hne] at hqq ⊢; exact hptok _ _ (h.wait q pt' hqq)
  · rcases hcb x _ hx with hx | ⟨hx, _⟩
    · exact hx
    · cases hx; exact absurd rfl hne
  · rcases hcb x _ hx with hx | ⟨hx, _⟩
    · exact hx
    · cases hx
  · rcases hcb x _ hx with hx | ⟨hx, _⟩
    · exact hx
    · cases hx

theorem run_ends {pt0 : Pt} {v : Except PyErr SVal} (h : Run s) (hp : s.points p = some pt0) (hl : Loose s p) : Run (s.ends p v) ∧ Others p s (s.ends p v) := by
  have hlt := points_lt h.1 hp
  have hval := h.1.live p (by rw [hp]; rfl)
  have hpts : ∀ q, ({ s with points := fset s.points p Option.none } : Sim).points q = if q = p then Option.none else s.points q := fun q => rfl
  have h1 : Run ({ s with points := fset s.points p Option.none } : Sim) ∧ Others p s ({ s with points := fset s.points p Option.none } : Sim) := by
    obtain ⟨h, hg⟩ := h
    have hq : ∀ x, Quiet s x → Quiet ({ s with points := fset s.points p Option.none } : Sim) x := fun x hx =>
      ⟨hx.1, by rw [hpts]; split <;> [rfl; exact hx.2.1], hx.2.2⟩
    refine ⟨⟨⟨h.sorted, h.ahead, h.grid, fun x q hx => ⟨(h.res x q hx).1, ?_⟩, h.once, h.intr, fun x d hx => hq d (h.chk x d hx), fun x hx => ⟨(h.fresh x hx).1, (h.fresh x hx).2.1, ?_⟩,
      h.known, h.queued, fun q hqq => ?_, fun q pt' hqq => ?_, fun n a ha => hq a (h.act n a ha), hq _ h.proc, hq _ h.env, h.trace, h.order⟩, hg⟩,
      ⟨rfl, le_rfl, fun q _ hne => by rw [hpts, if_neg hne], fun _ _ _ => rfl, fun _ _ h => h, fun _ _ _ _ h => h, fun _ _ _ => .rfl, fun _ h => h, fun _ h => .inl h, fun _ => .rfl⟩⟩
    · have hne : q ≠ p := by rintro rfl; exact hl x hx
      rw [hpts, if_neg hne]; exact (h.res x q hx).2
    · rw [hpts]; split <;> [rfl; exact (h.fresh x hx).2.2]
    · rw [hpts] at hqq
      split at hqq
      · cases hqq
      · exact h.live q hqq
    · rw [hpts] at hqq
      split at hqq
      · cases hqq
      · exact h.wait q pt' hqq
  have hm : Mild ({ s with points := fset s.points p Option.none } : Sim) (s.ends p v) := mild_trigger hval
  exact ⟨run_of h1.1 (inv_trigger h1.1.1 h1.1.2 hval hlt (by rw [hpts, if_pos rfl])) hm, others_trans h1.2 (others_mild hm)⟩

theorem value_ends (s : Sim) (p : ℕ) (v : Except PyErr SVal) (x : ℕ) : ((s.ends p v).events x).value = if x = p then some v else (s.events x).value := by
  show (fset s.events p _ x).value = _
  by_cases h : x = p
  · subst h; simp [fset]
  · simp [fset, h]

/-! ## What this does to the cycle -/

/-- A process of a module. -/
theorem rules_other (h : Rules₂ rf s st c) (hc : p ≠ c) (h2 : p ≠ 2) :
    (∀ ev pt, Modular p pt → Rules₂ rf (s.waits p ev pt) st c) ∧ ∀ v, Rules₂ rf (s.ends p v) st c := by
  refine ⟨fun ev pt hm => ?_, fun v => ?_⟩
  · have hpts : ∀ q, (s.waits p ev pt).points q = if q = p then some pt else s.points q := fun q => rfl
    have htg : ∀ q, (s.waits p ev pt).target q = if q = p then ev else s.target q := fun q => rfl
    refine ⟨⟨h.main_lt, h.c_lt, h.ne, h.stage, fun q pt' hq hne => ?_, fun pt' hq => ?_⟩, fun pt' hq => ?_, fun hq hv => ?_, fun pt' hq hpt hn => ?_⟩
    · rw [hpts] at hq
      split at hq
      · rename_i he; subst he; cases hq; exact hm
      · exact h.mods q pt' hq hne
    · rw [hpts, if_neg h2.symm] at hq
      rw [htg, if_neg h2.symm, hpts, if_neg hc.symm]; exact h.main pt' hq
    · rw [hpts, if_neg hc.symm] at hq; exact h.child pt' hq
    · rw [hpts, if_neg hc.symm] at hq
      exact h.ended hq (by rw [← hv]; exact (value_addCallback _ _ _ _).symm)
    · rw [hpts, if_neg h2.symm] at hq
      rw [hpts, if_neg hc.symm] at hn
      have := h.over pt' hq hpt hn
      rw [show ((s.waits p ev pt).events c).value = (s.events c).value from value_addCallback _ _ _ _]; exact this
  · have hpts : ∀ q, (s.ends p v).points q = if q = p then Option.none else s.points q := fun q => rfl
    refine ⟨⟨h.main_lt, h.c_lt, h.ne, h.stage, fun q pt' hq hne => ?_, fun pt' hq => ?_⟩, fun pt' hq => ?_, fun hq hv => ?_, fun pt' hq hpt hn => ?_⟩
    · rw [hpts] at hq
      split at hq
      · cases hq
      · exact h.mods q pt' hq hne
    · rw [hpts, if_neg h2.symm] at hq
      rw [hpts, if_neg hc.symm]; exact h.main pt' hq
    · rw [hpts, if_neg hc.symm] at hq; exact h.child pt' hq
    · rw [hpts, if_neg hc.symm] at hq
      rw [value_ends, if_neg hc.symm] at hv
      exact h.ended hq hv
    · rw [hpts, if_neg h2.symm] at hq
      rw [hpts, if_neg hc.symm] at hn
      rw [value_ends, if_neg hc.symm]; exact h.over pt' hq hpt hn

/-- The process of one cycle. -/
theorem rules_child {pt0 : Pt} (h : RulesBut rf s st c) (hp : s.points c = some pt0) :
    (∀ ev pt, LegalPt rf st pt → Rules₂ rf (s.waits c ev pt) st c) ∧ ∀ v, (v = .ok .procs → st = .idle) → Rules₂ rf (s.ends c v) st c := by
  refine ⟨fun ev pt hm => ?_, fun v hvv => ?_⟩
  · have hpts : ∀ q, (s.waits c ev pt).points q = if q = c then some pt else s.points q := fun q => rfl
    have htg : ∀ q, (s.waits c ev pt).target q = if q = c then ev else s.target q := fun q => rfl
    refine ⟨⟨h.main_lt, h.c_lt, h.ne, h.stage, fun q pt' hq hne => ?_, fun pt' hq => ?_⟩, fun pt' hq => ?_, fun hq hv => ?_, fun pt' hq hpt hn => ?_⟩
    · rw [hpts, if_neg hne] at hq; exact h.mods q pt' hq hne
    · rw [hpts, if_neg h.ne.symm] at hq
      rw [htg, if_neg h.ne.symm]
      rcases h.main pt' hq with hm | hm
      · exact .inl hm
      · rw [hm.2.2] at hp; cases hp
    · rw [hpts, if_pos rfl] at hq; cases hq; exact hm
    · rw [hpts, if_pos rfl] at hq; cases hq
    · rw [hpts, if_pos rfl] at hn; cases hn
  · have hpts : ∀ q, (s.ends c v).points q = if q = c then Option.none else s.points q := fun q => rfl
    refine ⟨⟨h.main_lt, h.c_lt, h.ne, h.stage, fun q pt' hq hne => ?_, fun pt' hq => ?_⟩, fun pt' hq => ?_, fun hq hv => ?_, fun pt' hq hpt hn => ?_⟩
    · rw [hpts, if_neg hne] at hq; exact h.mods q pt' hq hne
    · rw [hpts, if_neg h.ne.symm] at hq
      rcases h.main pt' hq with hm | hm
      · exact .inl hm
      · rw [hm.2.2] at hp; cases hp
    · rw [hpts, if_pos rfl] at hq; cases hq
    · rw [value_ends, if_pos rfl] at hv
      exact hvv (by simpa using hv)
    · rw [value_ends, if_pos rfl]; rfl

/-- The process number 2. -/
theorem rules_main (h : Rules₂ rf s st c) :
    (∀ ev pt, pt.resting → st = .idle → s.points c = Option.none → Rules₂ rf (s.waits 2 ev pt) st c) ∧ ∀ v, Rules₂ rf (s.ends 2 v) st c := by
  refine ⟨fun ev pt hm hi hn => ?_, fun v => ?_⟩
  · have hpts : ∀ q, (s.waits 2 ev pt).points q = if q = 2 then some pt else s.points q := fun q => rfl
    refine ⟨⟨h.main_lt, h.c_lt, h.ne, h.stage, fun q pt' hq hne => ?_, fun pt' hq => ?_⟩, fun pt' hq => ?_, fun hq hv => hi, fun pt' hq hpt hn => ?_⟩
    · rw [hpts] at hq
      split at hq
      · rename_i he; subst he; cases hq
        cases pt <;> first | exact rfl | exact hm.elim
      · exact h.mods q pt' hq hne
    · rw [hpts, if_pos rfl] at hq
      cases hq
      rw [hpts, if_neg h.ne]
      exact .inr ⟨.inr hm, hi, hn⟩
    · rw [hpts, if_neg h.ne] at hq; exact h.child pt' hq
    · rw [hpts, if_pos rfl] at hq
      cases hq
      rcases hpt with rfl | rfl <;> exact hm.elim
  · have hpts : ∀ q, (s.ends 2 v).points q = if q = 2 then Option.none else s.points q := fun q => rfl
    refine ⟨⟨h.main_lt, h.c_lt, h.ne, h.stage, fun q pt' hq hne => ?_, fun pt' hq => ?_⟩, fun pt' hq => ?_, fun hq hv => ?_, fun pt' hq hpt hn => ?_⟩
    · rw [hpts] at hq
      split at hq
      · cases hq
      · exact h.mods q pt' hq hne
    · rw [hpts, if_pos rfl] at hq; cases hq
    · rw [hpts, if_neg h.ne] at hq; exact h.child pt' hq
    · rw [hpts, if_neg h.ne] at hq
      rw [value_ends, if_neg h.ne] at hv
      exact h.ended hq hv
    · rw [hpts, if_pos rfl] at hq; cases hq

/-- A new cycle. -/
theorem rules_begin {pt0 pt g : _} {name : String} (h : Rules₂ rf s .idle c) (hn : s.points c = Option.none) (hp : s.points 2 = some pt0)
    (hg : LegalPt rf .idle (.localNew name g)) (hpt : pt = .procFirst ∨ pt = .procAgain) :
    Rules₂ rf ((process (.localNew name g) s).1.waits 2 s.next pt) .idle s.next := by
  have hlt := h.main_lt
  have hpts : ∀ q, ((process (.localNew name g) s).1.waits 2 s.next pt).points q = if q = 2 then some pt else if q = s.next then some (.localNew name g) else s.points q := fun q => rfl
  refine ⟨⟨Nat.lt_add_right 2 hlt, by show s.next < s.next + 2; omega, by omega, h.stage, fun q pt' hq hne => ?_, fun pt' hq => ?_⟩, fun pt' hq => ?_, fun hq _ => rfl, fun pt' hq hpt hn' => ?_⟩
  · rw [hpts] at hq
    split at hq
    · rename_i he; subst he; cases hq; rcases hpt with rfl | rfl <;> rfl
    · refine h.mods q pt' hq ?_
      rintro rfl; rw [hn] at hq; cases hq
  · rw [hpts, if_pos rfl] at hq
    cases hq
    exact .inl ⟨hpt, rfl⟩
  · rw [hpts, if_neg (by omega), if_pos rfl] at hq
    cases hq
    exact hg
  · rw [hpts, if_neg (by omega), if_pos rfl] at hn'; cases hn'

/-! ## Running a process -/

/-- What the process of a cycle waits for. -/
def ChildOk (rf : ℚ) (st : Stage) (s : Sim) : Res → Prop
  | .wait ev pt => PtOk s ev pt ∧ NoInt s ev ∧ LegalPt rf st pt
  | .done v => v = .procs → st = .idle

theorem doing_localRun_child {name : String} {o : Out Mach YV Unit} (hname : name = procName) (h : Run s) (hg : o.Yields GridY) (ho : Stages rf (fun st _ => st = .idle) st o) :
    Doing (localRun name o) s (ChildOk rf st) := by
  cases o with
  | yield w y k =>
    cases y with
    | ev e =>
      unfold localRun
      refine doing_bind (doing_plain (plain_w w) h) fun _ s1 h1 _ _ => ?_
      refine doing_bind (doing_get h1) fun now s2 h2 _ hn => ?_
      obtain ⟨rfl, rfl⟩ := hn
      have heq : s2.now + (e.time - round4 s2.now) = e.time := by rw [round4_onGrid h2.2]; ring
      refine doing_bind (doing_timeout h2 fun _ => by rw [heq]; exact hg.1) fun t s3 h3 _ ht => ?_
      rw [heq] at ht
      exact doing_pure h3 ⟨⟨hg.1, ht.1, hg.2⟩, ht.2, hname, ho⟩
    | cont d => exact doing_bind (doing_plain (plain_w w) h) fun _ s1 h1 _ _ => doing_pure h1 (by simp [ChildOk])
    | procs => exact doing_bind (doing_plain (plain_w w) h) fun _ s1 h1 _ _ => doing_pure h1 fun _ => ho.1
    | nothing => exact doing_bind (doing_plain (plain_w w) h) fun _ s1 h1 _ _ => doing_pure h1 (by simp [ChildOk])
  | ret w r => exact doing_bind (doing_plain (plain_w w) h) fun _ s1 h1 _ _ => doing_pure h1 (by simp [ChildOk])
  | raise w x => exact doing_bind (doing_plain (plain_w w) h) fun _ s1 h1 _ _ => doing_throw h1

theorem doing_afterPrint_child {name : String} {e : Ev} {k : Mach → Out Mach YV Unit} (hname : name = procName) (h : Run s) (hg : ∀ w, (k w).Yields GridY)
    (hk : ∀ w, Stages rf (fun st _ => st = .idle) st (k w)) :
    Doing (do activateProc e; envInteraction; let w ← SimM.get Sim.w; localRun name (k w) : SimM Res) s (ChildOk rf st) :=
  doing_bind (doing_activateProc h) fun _ s1 h1 _ _ => doing_bind (doing_envInteraction h1) fun _ s2 h2 _ _ =>
    doing_bind (doing_get h2) fun w s3 h3 _ _ => doing_localRun_child hname h3 (hg w) (hk w)

theorem resume_eq (C : Cfg) {x : Except PyErr SVal} {pt : Pt} (hp : s.points p = some pt) : s.resume C p x =
    match code C pt x s with
    | (s1, .ok (.wait ev pt')) => s1.waits p ev pt'
    | (s1, .ok (.done v)) => s1.ends p (.ok v)
    | (s1, .error x) => s1.ends p (.error x) := by
  unfold Sim.resume
  rw [hp]
  rfl

/-- What is known of the state and the result once the code has run, in order to go on. -/
theorem resume_ok {C : Cfg} {x : Except PyErr SVal} {pt : Pt} (h : Run s) (hp : s.points p = some pt) (hl : Loose s p)
    (hcode : Run (code C pt x s).1 ∧ Mild s (code C pt x s).1 ∧ ∀ ev pt', (code C pt x s).2 = .ok (.wait ev pt') → PtOk (code C pt x s).1 ev pt' ∧ NoInt (code C pt x s).1 ev)
    (hw : ∀ ev pt', (code C pt x s).2 = .ok (.wait ev pt') → Cycling rf ((code C pt x s).1.waits p ev pt'))
    (hd : ∀ v, (code C pt x s).2 = .ok (.done v) → Cycling rf ((code C pt x s).1.ends p (.ok v)))
    (he : ∀ y, (code C pt x s).2 = .error y → Cycling rf ((code C pt x s).1.ends p (.error y))) :
    Run (s.resume C p x) ∧ Others p s (s.resume C p x) ∧ Cycling rf (s.resume C p x) := by
  rw [resume_eq C hp]
  have hlt := points_lt h.1 hp
  obtain ⟨h1, h2, h3⟩ := hcode
  rcases hc : code C pt x s with ⟨s1, y | r⟩
  · rw [hc] at h1 h2 he
    have hp1 : s1.points p = some pt := (h2.points p hlt).trans hp
    obtain ⟨a, b⟩ := run_ends (v := .error y) h1 hp1 (loose_mild h2 hlt hl)
    exact ⟨a, others_trans (others_mild h2) b, he y rfl⟩
  · rw [hc] at h1 h2 h3 hw hd
    have hp1 : s1.points p = some pt := (h2.points p hlt).trans hp
    cases r with
    | wait ev pt' =>
      obtain ⟨a, b⟩ := run_waits h1 hp1 (loose_mild h2 hlt hl) (h3 ev pt' rfl).1 (h3 ev pt' rfl).2
      exact ⟨a, others_trans (others_mild h2) b, hw ev pt' rfl⟩
    | done v =>
      obtain ⟨a, b⟩ := run_ends (v := .ok v) h1 hp1 (loose_mild h2 hlt hl)
      exact ⟨a, others_trans (others_mild h2) b, hd v rfl⟩

theorem procCycle_eq (C : Cfg) (pt : Pt) (s : Sim) :
    procCycle C pt s = ((process (.localNew procName (genProcedural C s.now)) s).1, .ok (.wait s.next pt)) := rfl

theorem resume_begin {C : Cfg} {pt pt' : Pt} {v : SVal} (h : Run s) (hr : Rules₂ C.ruleFiring s .idle c) (hn : s.points c = Option.none) (hp : s.points 2 = some pt) (hl : Loose s 2)
    (hc : code C pt (.ok v) = procCycle C pt') (hpt : pt' = .procFirst ∨ pt' = .procAgain) :
    Run (s.resume C 2 (.ok v)) ∧ Others 2 s (s.resume C 2 (.ok v)) ∧ Cycling C.ruleFiring (s.resume C 2 (.ok v)) := by
  have hgrid : ∀ s' ev, PtOk s' ev (.localNew procName (genProcedural C s.now)) := fun _ _ w => gridY_procedural C s.now w
  have hleg : LegalPt C.ruleFiring .idle (.localNew procName (genProcedural C s.now)) := ⟨⟨rfl, rfl⟩, fun w => gridY_procedural C s.now w, fun w => stages_procedural C h.2 w⟩
  obtain ⟨h1, h2⟩ := run_process h hgrid rfl
  have heq : code C pt (.ok v) s = ((process (.localNew procName (genProcedural C s.now)) s).1, .ok (.wait s.next pt')) := by rw [hc, procCycle_eq]
  refine resume_ok h hp hl ?_ ?_ ?_ ?_ <;> rw [heq]
  · refine ⟨h1, h2, fun ev q he => ?_⟩
    simp only [Except.ok.injEq, Res.wait.injEq] at he
    obtain ⟨rfl, rfl⟩ := he
    refine ⟨?_, noInt_process h⟩
    rcases hpt with rfl | rfl <;> trivial
  · intro ev q he
    simp only [Except.ok.injEq, Res.wait.injEq] at he
    obtain ⟨rfl, rfl⟩ := he
    exact ⟨_, _, rules_begin hr hn hp hleg hpt⟩
  · simp
  · simp

/-- Running a process keeps the invariants. `x` is what it waited for, or an interruption. -/
theorem resume_run {C : Cfg} {x : Except PyErr SVal} {pt : Pt} (h : Run s) (hk : Cycling C.ruleFiring s) (hp : s.points p = some pt) (hl : Loose s p)
    (hd : ∀ t v, pt.due = some t → x = .ok v → t = s.now) (hx : x = .ok .procs → (s.events (s.target p)).value = some (.ok .procs)) :
    Run (s.resume C p x) ∧ Others p s (s.resume C p x) ∧ Cycling C.ruleFiring (s.resume C p x) := by
  obtain ⟨st, c, hr⟩ := hk
  have hok := h.1.wait p pt hp
  have hlt := points_lt h.1 hp
  by_cases hpc : p = c
  · -- the process of a cycle
    subst hpc
    have hleg := hr.child pt hp
    cases pt with
    | localNew name g =>
      have hdo : Doing (code C (.localNew name g) x) s (ChildOk C.ruleFiring st) := by
        rcases x with x | v
        · exact doing_throw h
        · exact doing_bind (doing_get h) fun w s1 h1 _ _ => doing_localRun_child hleg.1.1 h1 (hok w) (hleg.2.2 w)
      obtain ⟨a1, a2, a3⟩ := hdo
      have hb := rulesBut_full hr.toRulesBut a2
      have hp1 := (a2.1.points p hlt).trans hp
      refine resume_ok h hp hl ⟨a1, a2.1, fun ev q he => ⟨(a3 _ he).1, (a3 _ he).2.1⟩⟩ (fun ev q he => ⟨_, _, (rules_child hb hp1).1 ev q (a3 _ he).2.2⟩)
        (fun v he => ⟨_, _, (rules_child hb hp1).2 _ fun hv => a3 _ he (by simpa using hv)⟩) (fun y he => ⟨_, _, (rules_child hb hp1).2 _ (by simp)⟩)
    | localWait name e k =>
      obtain ⟨hname, st', ⟨hst, _⟩, hk⟩ := hleg
      rcases x with x | v
      · have hdo : Doing (code C (.localWait name e k) (.error x)) s (ChildOk C.ruleFiring st) := by
          by_cases hi : x = .interrupt
          · subst hi; exact doing_pure h (by simp [ChildOk])
          · have : code C (.localWait name e k) (.error x) = .throw x := by cases x <;> first | rfl | exact absurd rfl hi
            rw [this]; exact doing_throw h
        obtain ⟨a1, a2, a3⟩ := hdo
        have hb := rulesBut_full hr.toRulesBut a2
        have hp1 := (a2.1.points p hlt).trans hp
        refine resume_ok h hp hl ⟨a1, a2.1, fun ev q he => ⟨(a3 _ he).1, (a3 _ he).2.1⟩⟩ (fun ev q he => ⟨_, _, (rules_child hb hp1).1 ev q (a3 _ he).2.2⟩)
          (fun v he => ⟨_, _, (rules_child hb hp1).2 _ fun hv => a3 _ he (by simpa using hv)⟩) (fun y he => ⟨_, _, (rules_child hb hp1).2 _ (by simp)⟩)
      · obtain ⟨b1, b2⟩ := run_print h (hd e.time v rfl rfl)
        have hprint : RulesBut C.ruleFiring (printEvent e s).1 st' p := by
          have hbase := hr.toRulesBut
          have hmain : ∀ pt, s.points 2 = some pt → ((pt = .procFirst ∨ pt = .procAgain) ∧ s.target 2 = p) := fun pt h2 => by
            rcases hbase.main pt h2 with hm | hm
            · exact hm
            · rw [hm.2.2] at hp; cases hp
          rcases printEvent_cases e with ⟨hu, hpe⟩ | ⟨hu, hpe⟩ <;> rw [hpe]
          · rw [hu] at hst
            have hq : ¬ Cyclic .unknown := fun h => h
            obtain rfl : st = st' := by rw [stage_next_other st _ hq] at hst; simpa using hst
            exact hbase
          · refine ⟨hbase.main_lt, hbase.c_lt, hbase.ne, ?_, hbase.mods, fun pt h2 => .inl (hmain pt h2)⟩
            show stageOf C.ruleFiring (timedReports (s.trace ++ [(s.now, e)])) = some st'
            rw [timedReports_append]
            by_cases hc : Cyclic e.act
            · have : timedReports [(s.now, e)] = [(e.time, e.act)] := by simp [timedReports, hc]
              rw [this, stageOf_append, hbase.stage]; exact hst
            · have : timedReports [(s.now, e)] = [] := by simp [timedReports, hc]
              rw [stage_next_other st _ hc] at hst
              cases hst
              rw [this, List.append_nil]; exact hbase.stage
        obtain ⟨a1, a2, a3⟩ := doing_afterPrint_child (name := name) (e := e) hname b1 hok.2.2 hk
        have heq : code C (.localWait name e k) (.ok v) s =
            (do activateProc e; envInteraction; let w ← SimM.get Sim.w; localRun name (k w) : SimM Res) (printEvent e s).1 := by
          show SimM.bind (printEvent e) _ s = _
          rcases printEvent_cases e with ⟨_, hpe⟩ | ⟨_, hpe⟩ <;> rw [hpe] <;> rfl
        rw [← heq] at a1 a2 a3
        have hb := rulesBut_full hprint a2
        have hm := mild_trans b2 a2.1
        have hp1 := (hm.points p hlt).trans hp
        refine resume_ok h hp hl ⟨a1, hm, fun ev q he => ⟨(a3 _ he).1, (a3 _ he).2.1⟩⟩ (fun ev q he => ⟨_, _, (rules_child hb hp1).1 ev q (a3 _ he).2.2⟩)
          (fun v he => ⟨_, _, (rules_child hb hp1).2 _ fun hv => a3 _ he (by simpa using hv)⟩) (fun y he => ⟨_, _, (rules_child hb hp1).2 _ (by simp)⟩)
    | _ => exact hleg.elim
  · by_cases h2 : p = 2
    · -- the process of the rules
      subst h2
      have hmain := hr.main pt hp
      by_cases hb : (pt = .procNew ∨ pt = .procSpin 0) ∧ ∃ v, x = .ok v
      · obtain ⟨hb, v, rfl⟩ := hb
        obtain ⟨_, rfl, hn⟩ := hmain.resolve_left (by rcases hb with rfl | rfl <;> simp)
        rcases hb with rfl | rfl
        · exact resume_begin (pt' := .procFirst) h hr hn hp hl rfl (.inl rfl)
        · exact resume_begin (pt' := .procAgain) h hr hn hp hl rfl (.inr rfl)
      · have hdo : Doing (code C pt x) s (fun s r => RestOk s r ∧ (pt.resting ∨ x = .ok .procs)) := by
          by_cases hs : pt = .procNew ∨ pt = .procSpin 0
          · rcases x with x | v
            · rcases hs with rfl | rfl <;> exact doing_throw h
            · exact absurd ⟨hs, v, rfl⟩ hb
          · rw [not_or] at hs
            refine doing_main C h ?_ hs.2
            rcases hmain with hm | hm
            · exact hm.1.elim .inl fun h => .inr (.inl h)
            · exact .inr (.inr (hm.1.resolve_left hs.1))
        obtain ⟨a1, a2, a3⟩ := hdo
        have hr1 := rules_full hr a2
        refine resume_ok h hp hl ⟨a1, a2.1, fun ev q he => ⟨(a3 _ he).1.1.1, (a3 _ he).1.1.2.1⟩⟩ (fun ev q he => ⟨st, c, ?_⟩)
          (fun v he => ⟨_, _, (rules_main hr1).2 _⟩) (fun y he => ⟨_, _, (rules_main hr1).2 _⟩)
        obtain ⟨⟨_, ev', q', heq, hrest⟩, hor⟩ := a3 _ he
        obtain ⟨rfl, rfl⟩ : ev = ev' ∧ q = q' := by simpa using heq
        have hidle : st = .idle ∧ s.points c = Option.none := by
          rcases hmain with hm | hm
          · have hnr : ¬ pt.resting := by rcases hm.1 with rfl | rfl <;> exact fun h => h
            have hv := hx (hor.resolve_left hnr)
            rw [hm.2] at hv
            have hn : s.points c = Option.none := by
              by_contra hne
              rw [h.1.live c (Option.isSome_iff_ne_none.2 hne)] at hv; cases hv
            exact ⟨hr.ended hn hv, hn⟩
          · exact hm.2
        exact (rules_main hr1).1 ev q hrest hidle.1 ((a2.1.points c hr.c_lt).trans hidle.2)
    · have hmod := hr.mods p pt hp hpc
      obtain ⟨a1, a2, a3⟩ := doing_code C h hok hmod hd h2
      have hr1 := rules_full hr a2
      exact resume_ok h hp hl ⟨a1, a2.1, fun ev q he => ⟨(a3 _ he).1, (a3 _ he).2.1⟩⟩ (fun ev q he => ⟨_, _, (rules_other hr1 hpc h2).1 ev q (a3 _ he).2.2⟩)
        (fun v _ => ⟨_, _, (rules_other hr1 hpc h2).2 _⟩) (fun y _ => ⟨_, _, (rules_other hr1 hpc h2).2 _⟩)

end Verif
