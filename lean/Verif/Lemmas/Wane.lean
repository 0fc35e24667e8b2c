import Verif.Lemmas.Endure2
import Verif.Lemmas.Aware
import Verif.Lemmas.Pace
/-! # What is left to be done becomes less -/
namespace Verif
open Verif.Spec Classical

variable {C : Cfg} {B N n m p : ℕ} {s s' : Sim}

/-! ## The measure -/

/-- How often rules were selected. -/
def sels (s : Sim) : ℕ := s.trace.countP (fun x => x.2.act.isSel)

/-- Process number 2 will not start further cycles. -/
def Lost (s : Sim) : Prop := ∀ pt, s.points 2 = some pt → Cyc pt ∧ ∃ v, (s.events (s.target 2)).value = some v ∧ v ≠ .ok .procs

/-- Selections and steps of the environment. -/
noncomputable def xs (B N : ℕ) (s : Sim) : ℕ := (B - sels s) + tot (envW N) s

/-- Cycles. -/
noncomputable def ys (s : Sim) : ℕ := tot lateW s + (if Lost s then 0 else pcount s.w - tot pendW s)

/-- It becomes less, or only `c` is added. -/
def Sinks (B N c : ℕ) (s s' : Sim) : Prop := xs B N s' < xs B N s ∨ (xs B N s' ≤ xs B N s ∧ (ys s' < ys s ∨ (ys s' ≤ ys s ∧ fuel s' ≤ fuel s + c)))

theorem sinks_refl (s : Sim) : Sinks B N 0 s s := .inr ⟨le_rfl, .inr ⟨le_rfl, le_rfl⟩⟩
theorem sinks_trans {a b c : Sim} (h1 : Sinks B N n a b) (h2 : Sinks B N m b c) : Sinks B N (n + m) a c := by
  unfold Sinks at *
  omega
theorem sinks_le {a b : Sim} (h : Sinks B N n a b) (hl : n ≤ m) : Sinks B N m a b := by
  unfold Sinks at *
  omega

theorem sels_notes (h : Notes s s') : sels s ≤ sels s' := by
  obtain ⟨-, l, ht, -⟩ := h
  unfold sels
  rw [ht, List.countP_append]
  omega

theorem xs_le (h : Notes s s') (he : tot (envW N) s' ≤ tot (envW N) s) : xs B N s' ≤ xs B N s := by
  have := sels_notes h
  unfold xs
  omega

theorem ys_le (hl : tot lateW s' ≤ tot lateW s) (h : Lost s' ∨ ((Lost s → Lost s') ∧ pcount s'.w - tot pendW s' ≤ pcount s.w - tot pendW s)) : ys s' ≤ ys s := by
  unfold ys
  rcases h with h | ⟨h, h'⟩
  · rw [if_pos h]; omega
  · split_ifs with h1 h2 h2 <;> first | omega | exact absurd (h h2) h1

theorem ys_lt (hl : tot lateW s' < tot lateW s) (h : Lost s' ∨ ((Lost s → Lost s') ∧ pcount s'.w - tot pendW s' ≤ pcount s.w - tot pendW s)) : ys s' < ys s := by
  unfold ys
  rcases h with h | ⟨h, h'⟩
  · rw [if_pos h]; omega
  · split_ifs with h1 h2 h2 <;> first | omega | exact absurd (h h2) h1

/-! ## A process waits again or ends -/

/-- The weight of the place where a process waits next. -/
def nextW (f : Pt → ℕ) : Except PyErr Res → ℕ
  | .ok (.wait _ pt) => f pt
  | _ => 0

theorem sane_waits (hs : Sane C s) {pt pt' : Pt} {ev : ℕ} (hp : s.points p = some pt) (hd : Sound C pt') : Sane C (s.waits p ev pt') := by
  have hne : s.procActivate ≠ p := fun h => by have := hs.free; rw [h, hp] at this; cases this
  have hlt : p < s.next := not_le.1 fun h => by rw [hs.blank p h] at hp; cases hp
  refine ⟨fun i hi => ?_, hs.proc, hs.env, hs.ne, ?_, fun i q hi => ?_⟩
  · have hi : s.next ≤ i := hi
    show fset s.points p (some pt') i = _
    rw [fset_other _ _ (by omega)]; exact hs.blank i hi
  · show fset s.points p (some pt') s.procActivate = _
    rw [fset_other _ _ hne]; exact hs.free
  · have hi : fset s.points p (some pt') i = some q := hi
    by_cases h : i = p
    · subst h; rw [fset_same] at hi; cases hi; exact hd
    · rw [fset_other _ _ h] at hi; exact hs.sound i q hi

theorem sane_ends (hs : Sane C s) {pt : Pt} {v : Except PyErr SVal} (hp : s.points p = some pt) : Sane C (s.ends p v) := by
  have hne : s.procActivate ≠ p := fun h => by have := hs.free; rw [h, hp] at this; cases this
  have hlt : p < s.next := not_le.1 fun h => by rw [hs.blank p h] at hp; cases hp
  refine ⟨fun i hi => ?_, hs.proc, hs.env, hs.ne, ?_, fun i q hi => ?_⟩
  · have hi : s.next ≤ i := hi
    show fset s.points p Option.none i = _
    rw [fset_other _ _ (by omega)]; exact hs.blank i hi
  · show fset s.points p Option.none s.procActivate = _
    rw [fset_other _ _ hne]; exact hs.free
  · have hi : fset s.points p Option.none i = some q := hi
    by_cases h : i = p
    · subst h; rw [fset_same] at hi; cases hi
    · rw [fset_other _ _ h] at hi; exact hs.sound i q hi

theorem fuel_waits (hs : Sane C s) {pt pt' : Pt} {ev : ℕ} (hp : s.points p = some pt) : fuel (s.waits p ev pt') + wt pt = fuel s + wt pt' := by
  have hlt : p < s.next := not_le.1 fun h => by rw [hs.blank p h] at hp; cases hp
  have h1 := tot_points (f := pw) (s := s) (s' := s.waits p ev pt') (p := p) (o := some pt') hlt rfl rfl
  rw [hp] at h1
  have h1 : tot pw (s.waits p ev pt') + pw pt = tot pw s + pw pt' := h1
  have hcb : (((s.events ev).callbacks.map (· ++ [Callback.resume p])).getD []).countP Callback.isCheck = ((s.events ev).callbacks.getD []).countP Callback.isCheck := by
    cases (s.events ev).callbacks with
    | none => rfl
    | some l => simp [List.countP_append, List.countP_cons, Callback.isCheck]
  have h2 : totE (s.waits p ev pt') = totE s := by
    by_cases he : ev < s.next
    · have := totE_events (s := s) (s' := s.waits p ev pt') (ev := ev) he rfl rfl
      rw [hcb] at this
      omega
    · exact totE_out (s := s) (s' := s.waits p ev pt') (ev := ev) (not_lt.1 he) rfl rfl
  have h3 : due ((s.waits p ev pt').events (s.waits p ev pt').procActivate) = due (s.events s.procActivate) := by
    show due (fset s.events ev _ s.procActivate) = _
    by_cases he : s.procActivate = ev
    · subst he
      rw [fset_same]
      unfold due
      dsimp only
      rw [Option.isSome_map]
    · rw [fset_other _ _ he]
  have h4 : debt (s.waits p ev pt') = debt s := rfl
  have h5 : (s.waits p ev pt').queue = s.queue := rfl
  unfold fuel
  rw [h2, h3, h4, h5]
  unfold pw at h1
  change tot pw (s.waits p ev pt') + (1 + wt pt) = tot pw s + (1 + wt pt') at h1
  omega

theorem fuel_ends (hs : Sane C s) {pt : Pt} {v : Except PyErr SVal} (hp : s.points p = some pt) : fuel (s.ends p v) + wt pt ≤ fuel s := by
  have hlt : p < s.next := not_le.1 fun h => by rw [hs.blank p h] at hp; cases hp
  have hne : s.procActivate ≠ p := fun h => by have := hs.free; rw [h, hp] at this; cases this
  set s1 : Sim := { s with points := fset s.points p Option.none } with hs1
  have h1 := tot_points (f := pw) (s := s) (s' := s1) (p := p) (o := Option.none) hlt rfl rfl
  rw [hp] at h1
  have h1 : tot pw s1 + (1 + wt pt) = tot pw s + 0 := h1
  have hsane : Sane C s1 := by
    have := sane_ends (C := C) (v := v) hs hp
    exact ⟨this.blank, this.proc, this.env, this.ne, this.free, this.sound⟩
  obtain ⟨-, -, h2⟩ := outlay_trigger' (N := 0) hsane (ev := p) (fun h => hne h.symm) v
  have h3 : totE s1 = totE s := rfl
  have h4 : debt s1 = debt s := rfl
  have h5 : s1.queue.length = s.queue.length := rfl
  have h6 : due (s1.events s1.procActivate) = due (s.events s.procActivate) := rfl
  show fuel (s1.trigger p v) + wt pt ≤ fuel s
  unfold fuel at h2 ⊢
  omega

/-- The process is resumed, and its code does this. -/
structure Parts (C : Cfg) (p : ℕ) (pt : Pt) (r : Sim × Except PyErr Res) (s' : Sim) : Prop where
  sane : Sane C s'
  tot : ∀ f : Pt → ℕ, tot f s' + f pt = tot f r.1 + nextW f r.2
  fuel : fuel s' + wt pt ≤ fuel r.1 + toll r.2
  w : s'.w = r.1.w
  args : s'.envArgs = r.1.envArgs
  act : s'.procActivate = r.1.procActivate
  notes : Notes r.1 s'
  wait : ∀ ev pt', r.2 = .ok (.wait ev pt') → s'.points p = some pt' ∧ s'.target p = ev
  done : ∀ v, r.2 = .ok (.done v) → s'.points p = Option.none ∧ (s'.events p).value = some (.ok v)
  raised : ∀ e, r.2 = .error e → s'.points p = Option.none ∧ (s'.events p).value = some (.error e)

theorem resume_parts {pt : Pt} {x : Except PyErr SVal} (hp : s.points p = some pt) (hs : Sane C (code C pt x s).1) (hl : Level0 N s (code C pt x s).1) (hlt : p < s.next)
    (hd : ∀ ev pt', (code C pt x s).2 = .ok (.wait ev pt') → Sound C pt') : Parts C p pt (code C pt x s) (s.resume C p x) := by
  rw [resume_eq C hp]
  have hp1 : (code C pt x s).1.points p = some pt := (hl.old p hlt).trans hp
  have hlt1 : p < (code C pt x s).1.next := hlt.trans_le hl.next
  rcases hc : code C pt x s with ⟨s1, e | ⟨ev, pt'⟩ | v⟩
  · rw [hc] at hs hp1 hlt1
    refine ⟨sane_ends hs hp1, fun f => ?_, fuel_ends hs hp1, rfl, rfl, rfl, says_same rfl rfl, (fun _ _ h => by cases h), (fun _ h => by cases h), fun e' h => ?_⟩
    · have := tot_points (f := f) (s := s1) (s' := s1.ends p (.error e)) (p := p) (o := Option.none) hlt1 rfl rfl
      rw [hp1] at this; exact this
    · cases h
      refine ⟨fset_same _ _ _, ?_⟩
      show (fset s1.events p _ p).value = _
      rw [fset_same]
  · rw [hc] at hs hp1 hlt1 hd
    refine ⟨sane_waits hs hp1 (hd ev pt' rfl), fun f => ?_, (fuel_waits hs hp1).le, rfl, rfl, rfl, says_same rfl rfl, fun _ _ h => ?_, fun _ h => (by cases h), fun _ h => by cases h⟩
    · have := tot_points (f := f) (s := s1) (s' := s1.waits p ev pt') (p := p) (o := some pt') hlt1 rfl rfl
      rw [hp1] at this; exact this
    · cases h
      exact ⟨fset_same _ _ _, fset_same _ _ _⟩
  · rw [hc] at hs hp1 hlt1
    refine ⟨sane_ends hs hp1, fun f => ?_, fuel_ends hs hp1, rfl, rfl, rfl, says_same rfl rfl, fun _ _ h => (by cases h), fun v' h => ?_, fun _ h => by cases h⟩
    · have := tot_points (f := f) (s := s1) (s' := s1.ends p (.ok v)) (p := p) (o := Option.none) hlt1 rfl rfl
      rw [hp1] at this; exact this
    · cases h
      refine ⟨fset_same _ _ _, ?_⟩
      show (fset s1.events p _ p).value = _
      rw [fset_same]

/-! ## Cycles that lead nowhere -/

theorem lost_others (h2 : 2 < s.next) (hp : p ≠ 2) (ho : Others p s s') (h : Lost s) : Lost s' := by
  intro pt hpt
  rw [ho.points 2 h2 hp.symm] at hpt
  obtain ⟨a, v, b, c⟩ := h pt hpt
  exact ⟨a, v, by rw [ho.target 2 h2 hp.symm]; exact ho.value _ _ b, c⟩

/-- The process of a cycle ends without passing on the list. -/
theorem lost_child {rf : ℚ} {pt : Pt} {v : Except PyErr SVal} (hg : Good rf s) (hp : s.points p = some pt) (hm : ¬ Modular p pt) (ho : Others p s s')
    (hv : (s'.events p).value = some v) (hn : v ≠ .ok .procs) : Lost s' := by
  obtain ⟨-, st, c, hr⟩ := hg
  have hpc : p = c := by by_contra h; exact hm (hr.mods p pt hp h)
  subst hpc
  intro pt2 hpt
  rw [ho.points 2 hr.main_lt hr.ne.symm] at hpt
  rcases hr.main pt2 hpt with ⟨a, b⟩ | ⟨-, -, b⟩
  · refine ⟨a, v, ?_, hn⟩
    rw [ho.target 2 hr.main_lt hr.ne.symm, b]
    exact hv
  · rw [hp] at b; cases b

theorem not_modular_wait {name : String} {e : Ev} {k : Mach → Out Mach YV Unit} (h : e.act.step ≠ .late) : ¬ Modular p (.localWait name e k) := fun hm => by
  apply h
  have := hm.1
  cases ha : e.act <;> rw [ha] at this <;> first | rfl | exact absurd trivial this

theorem not_modular_new {name : String} {t : ℚ} (w : Mach) : ¬ Modular p (.localNew name (genProcedural C t)) := fun hm => by
  have := hm w
  obtain ⟨e, k, hg, ha, -⟩ := forked_procedural C t w
  rw [hg] at this
  obtain ⟨⟨-, h⟩, -⟩ := this
  rw [ha] at h
  exact h trivial

/-- When the list was passed on there is no other cycle. -/
theorem pend_zero {rf : ℚ} {pt : Pt} (hg : Good rf s) (hp : s.points 2 = some pt) (hc : Cyc pt) (hv : (s.events (s.target 2)).value.isSome) : tot pendW s = 0 := by
  obtain ⟨⟨hi, -⟩, st, c, hr⟩ := hg
  have ht : s.target 2 = c := by
    rcases hr.main pt hp with ⟨-, h⟩ | ⟨h, -⟩
    · exact h
    · rcases hc with rfl | rfl <;> rcases h with h | h <;> first | cases h | exact h.elim
  unfold tot
  refine Finset.sum_eq_zero fun i _ => ?_
  cases hq : s.points i with
  | none => rfl
  | some q =>
    show pendW q = 0
    by_contra hne
    cases q <;> try exact hne rfl
    rename_i name e k
    have hst : e.act.step ≠ .late := fun h => hne (by simp [pendW, h])
    have hic : i = c := by by_contra h; exact not_modular_wait hst (hr.mods i _ hq h)
    subst hic
    have := hi.live i (by rw [hq]; rfl)
    rw [ht, this] at hv
    cases hv

/-! ## One process goes on -/

/-- Process number 2 waits for its event. -/
def Rests (s : Sim) : Prop := s.points 2 = some .procIdle → s.target 2 = s.procActivate

/-- What the process of the rules may add. -/
def pay (x : Except PyErr SVal) (pt : Pt) : ℕ := match x with | .ok _ => extraPay pt | .error _ => 0

/-- What is known after one process has gone on. -/
structure Ebbs (C : Cfg) (B N c : ℕ) (s s' : Sim) : Prop where
  sane : Sane C s'
  args : s'.envArgs = s.envArgs
  rests : Rests s'
  notes : Notes s s'
  sinks : Sinks B N c s s'

theorem two_of_main {rf : ℚ} {pt : Pt} (hg : Good rf s) (hp : s.points p = some pt) (h : pt = .procNew ∨ Cyc pt ∨ pt.resting) : p = 2 := by
  obtain ⟨-, st, c, hr⟩ := hg
  by_cases hc : p = c
  · subst hc
    have := hr.child pt hp
    rcases h with rfl | (rfl | rfl) | h
    · exact this.elim
    · exact this.elim
    · exact this.elim
    · cases pt <;> first | exact h.elim | exact this.elim
  · have := hr.mods p pt hp hc
    rcases h with rfl | (rfl | rfl) | h
    · exact this
    · exact this
    · exact this
    · cases pt <;> first | exact h.elim | exact this

theorem two_main {rf : ℚ} {pt : Pt} (hg : Good rf s) (hp : s.points 2 = some pt) : pt = .procNew ∨ Cyc pt ∨ pt.resting := by
  obtain ⟨-, st, c, hr⟩ := hg
  rcases hr.main pt hp with ⟨h, -⟩ | ⟨h | h, -⟩
  · exact .inr (.inl h)
  · exact .inl h
  · exact .inr (.inr h)

theorem next_not_idle {pt : Pt} (h : pt = .procNew ∨ pt.resting) (x : Except PyErr SVal) {ev : ℕ} {pt' : Pt} (hr : (code C pt x s).2 = .ok (.wait ev pt')) : pt' ≠ .procIdle := by
  have hspin : ∀ n, (procSpins n s).2 = .ok (.wait ev pt') → pt' ≠ .procIdle := fun n hr => by
    rw [spins_eq] at hr
    cases hr
    simp
  have hcyc : ∀ q : Pt, q ≠ .procIdle → (procCycle C q s).2 = .ok (.wait ev pt') → pt' ≠ .procIdle := fun q hq hr => by
    rw [procCycle_eq] at hr
    cases hr
    exact hq
  rcases h with rfl | h
  · cases x with
    | error e => cases hr
    | ok v => exact hcyc _ (by simp) hr
  · cases pt with
    | procIdle => cases x with
      | error e => cases hr
      | ok v => exact hspin 4 hr
    | procSpin n => cases x with
      | error e => cases hr
      | ok v => cases n with
        | zero => exact hcyc _ (by simp) hr
        | succ n => exact hspin n hr
    | _ => exact h.elim

/-- Another process does not touch process number 2. -/
theorem rests_others (h2 : 2 < s.next) (hp : p ≠ 2) (ho : Others p s s') (ha : s'.procActivate = s.procActivate) (h : Rests s) : Rests s' := fun hpt => by
  rw [ho.points 2 h2 hp.symm] at hpt
  rw [ho.target 2 h2 hp.symm, ha]
  exact h hpt

theorem light_cheap {pt : Pt} (h : Cheap pt) : Light pt := by
  cases pt <;> first | exact ⟨rfl, rfl, fun _ => rfl⟩ | exact h.elim | exact ⟨if_neg h, if_neg h, fun _ => rfl⟩

theorem nextW_zero {f : Pt → ℕ} {r : Except PyErr Res} (h : ∀ ev pt', r = .ok (.wait ev pt') → f pt' = 0) : nextW f r = 0 := by
  rcases r with e | ⟨ev, pt'⟩ | v
  · rfl
  · exact h ev pt' rfl
  · rfl

section
variable {pt : Pt} {x : Except PyErr SVal} (hg : Good C.ruleFiring s) (hs : Sane C s) (hr : Rests s) (hp : s.points p = some pt) (ho : Others p s (s.resume C p x))
include hg hs hr hp ho

theorem sinks_cheap (hc : Cheap pt) : Ebbs C B N (pay x pt) s (s.resume C p x) := by
  obtain ⟨g1, g2, g3, g4⟩ := onto_code (N := N) hc (hs.sound p pt hp) x s hs
  have hlt := points_lt hg.1.1 hp
  have hpt := resume_parts (N := N) hp g1 g2.1 hlt fun ev pt' he => (g4 ev pt' he).1
  obtain ⟨l1, l2, l3⟩ := light_cheap hc
  have h2 : 2 < s.next := by obtain ⟨-, st, c, hk⟩ := hg; exact hk.main_lt
  have t1 := hpt.tot lateW
  have t2 := hpt.tot pendW
  have t3 := hpt.tot (envW N)
  rw [nextW_zero fun ev pt' he => (g4 ev pt' he).2.1, l1, g2.late] at t1
  rw [nextW_zero fun ev pt' he => (g4 ev pt' he).2.2.1, l2, g2.pend] at t2
  rw [nextW_zero fun ev pt' he => (g4 ev pt' he).2.2.2 N, l3 N, g2.env] at t3
  have hn : Notes s (s.resume C p x) := says_trans g2.trace hpt.notes
  refine ⟨hpt.sane, hpt.args.trans g2.args, ?_, hn, .inr ⟨xs_le hn (by omega), .inr ⟨ys_le (by omega) (.inr ⟨fun hl => ?_, ?_⟩), ?_⟩⟩⟩
  · by_cases h : p = 2
    · subst h
      intro hi
      have hm : pt = .procNew ∨ pt.resting := by
        rcases two_main hg hp with h | h | h
        · exact .inl h
        · rcases h with rfl | rfl <;> exact hc.elim
        · exact .inr h
      rcases hcr : (code C pt x s).2 with e | ⟨ev, pt'⟩ | v
      · rw [(hpt.raised e hcr).1] at hi; cases hi
      · rw [(hpt.wait ev pt' hcr).1] at hi
        cases hi
        exact absurd rfl (next_not_idle hm x hcr)
      · rw [(hpt.done v hcr).1] at hi; cases hi
    · exact rests_others h2 h ho (hpt.act.trans g2.act) hr
  · by_cases h : p = 2
    · subst h
      rcases (hl pt hp).1 with rfl | rfl <;> exact hc.elim
    · exact lost_others h2 h ho hl
  · rw [hpt.w, g2.pc]; omega
  · have := hpt.fuel
    have : fuel (code C pt x s).1 + toll (code C pt x s).2 ≤ fuel s + (wt pt + pay x pt) := g3
    omega

theorem sinks_env (hN : Screens C N s) (hpe : pt = .envNew ∨ ∃ pro k, pt = .envWait pro k) : Ebbs C B N (pay x pt) s (s.resume C p x) := by
  obtain ⟨n, hd, hn⟩ := drains_code (N := N) hs hN hpe (hs.sound p pt hp) x
  have hlt := points_lt hg.1.1 hp
  have hpt := resume_parts (N := N) hp hd.sane hd.level.1 hlt fun ev pt' he => (hd.next ev pt' he).1
  have h2 : 2 < s.next := by obtain ⟨-, st, c, hk⟩ := hg; exact hk.main_lt
  have hp2 : p ≠ 2 := fun h => by
    subst h
    rcases two_main hg hp with h | (h | h) | h <;> rcases hpe with rfl | ⟨pro, k, rfl⟩ <;> first | cases h | exact h.elim
  have t3 := hpt.tot (envW N)
  rw [hd.level.env] at t3
  have hnext : nextW (envW N) (code C pt x s).2 ≤ n := by
    rcases hcr : (code C pt x s).2 with e | ⟨ev, pt'⟩ | v
    · exact Nat.zero_le _
    · exact (hd.next ev pt' hcr).2.2.2.1
    · exact Nat.zero_le _
  have hnote : Notes s (s.resume C p x) := says_trans hd.level.trace hpt.notes
  refine ⟨hpt.sane, hpt.args.trans hd.level.args, rests_others h2 hp2 ho (hpt.act.trans hd.level.act) hr, hnote, .inl ?_⟩
  have := sels_notes hnote
  unfold xs
  omega

/-- A cycle before a rule is selected. -/
theorem sinks_turn (hp2 : p ≠ 2) (hm : ¬ Modular p pt) (hl : lateW pt = 0) (he : ∀ N, envW N pt = 0) (ht : Turn C N s (wt pt) (pendW pt) (code C pt x s)) : Ebbs C B N (pay x pt) s (s.resume C p x) := by
  have hlt := points_lt hg.1.1 hp
  have hpt := resume_parts (N := N) hp ht.sane ht.level hlt fun ev pt' hw => by
    rcases ht.res with ⟨y, h⟩ | ⟨v, -, h⟩ | ⟨h, -⟩ | ⟨ev', q, h, hd, -⟩
    · rw [h] at hw; cases hw
    · rw [h] at hw; cases hw
    · rw [h] at hw; cases hw
    · rw [h] at hw; cases hw; exact hd
  have h2 : 2 < s.next := by obtain ⟨-, st, c, hk⟩ := hg; exact hk.main_lt
  have t1 := hpt.tot lateW
  have t2 := hpt.tot pendW
  have t3 := hpt.tot (envW N)
  rw [hl, ht.level.late] at t1
  rw [ht.level.pend] at t2
  rw [he N, ht.level.env] at t3
  have hnote : Notes s (s.resume C p x) := says_trans ht.level.trace hpt.notes
  have hzero : nextW lateW (code C pt x s).2 = 0 ∧ nextW (envW N) (code C pt x s).2 = 0 := by
    rcases ht.res with ⟨y, h⟩ | ⟨v, -, h⟩ | ⟨h, -⟩ | ⟨ev', q, h, hd, a, b, -⟩ <;> rw [h]
    · exact ⟨rfl, rfl⟩
    · exact ⟨rfl, rfl⟩
    · exact ⟨rfl, rfl⟩
    · exact ⟨a, b N⟩
  obtain ⟨z1, z2⟩ := hzero
  refine ⟨hpt.sane, hpt.args.trans ht.level.args, rests_others h2 hp2 ho (hpt.act.trans ht.act) hr, hnote, .inr ⟨xs_le hnote (by omega), .inr ⟨ys_le (by omega) ?_, ?_⟩⟩⟩
  · rcases ht.res with ⟨y, h⟩ | ⟨v, hv, h⟩ | ⟨h, h0, hpc⟩ | ⟨ev', q, h, hd, -, -, hsh⟩
    · exact .inl (lost_child hg hp hm ho (hpt.raised y h).2 (by simp))
    · exact .inl (lost_child hg hp hm ho (hpt.done v h).2 (by simpa using hv))
    · refine .inr ⟨lost_others h2 hp2 ho, ?_⟩
      rw [h] at t2
      have t2 : tot pendW (s.resume C p x) + pendW pt = tot pendW s + 0 := t2
      rw [hpt.w, hpc]
      omega
    · refine .inr ⟨lost_others h2 hp2 ho, ?_⟩
      rw [h] at t2
      have t2 : tot pendW (s.resume C p x) + pendW pt = tot pendW s + pendW q := t2
      rw [hpt.w]
      unfold Shift at hsh
      omega
  · have := hpt.fuel
    have := ht.fuel
    omega

end

end Verif
