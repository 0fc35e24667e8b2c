import Verif.Lemmas.Wane2
/-! # With every step what is left becomes less -/
namespace Verif
open Verif.Spec Classical

variable {C : Cfg} {B N n m p : ℕ} {s s' : Sim}

/-! ## Callbacks -/

/-- What is known afterwards; it becomes less if rules are not selected too often. -/
structure Ebb (C : Cfg) (B N c : ℕ) (s s' : Sim) : Prop where
  sane : Sane C s'
  args : s'.envArgs = s.envArgs
  rests : Rests s'
  notes : Notes s s'
  sinks : sels s' ≤ B → Sinks B N c s s'

theorem ebb_refl (hs : Sane C s) (hr : Rests s) : Ebb C B N 0 s s := ⟨hs, rfl, hr, says_same rfl rfl, fun _ => sinks_refl s⟩
theorem ebb_trans {a b c : Sim} (h1 : Ebb C B N n a b) (h2 : Ebb C B N m b c) : Ebb C B N (n + m) a c :=
  ⟨h2.sane, h2.args.trans h1.args, h2.rests, says_trans h1.notes h2.notes, fun hc => sinks_trans (h1.sinks ((sels_notes h2.notes).trans hc)) (h2.sinks hc)⟩
theorem ebb_le {a b : Sim} (h : Ebb C B N n a b) (hl : n ≤ m) : Ebb C B N m a b := ⟨h.sane, h.args, h.rests, h.notes, fun hc => sinks_le (h.sinks hc) hl⟩

/-- No process goes on. -/
theorem ebb_quiet (hr : Rests s) (h : Outlay C N s n s') (hp : s'.points = s.points) (ht : s'.target = s.target) (hv : ∀ ev v, (s.events ev).value = some v → (s'.events ev).value = some v) : Ebb C B N n s s' := by
  obtain ⟨h1, h2, h3⟩ := h
  refine ⟨h1, h2.args, fun hi => ?_, h2.trace, fun _ => .inr ⟨xs_le h2.trace h2.env.le, .inr ⟨ys_le h2.late.le (.inr ⟨fun hl pt hpt => ?_, ?_⟩), h3⟩⟩⟩
  · rw [hp] at hi
    rw [ht, h2.act]
    exact hr hi
  · rw [hp] at hpt
    obtain ⟨a, v, b, c⟩ := hl pt hpt
    exact ⟨a, v, by rw [ht]; exact hv _ _ b, c⟩
  · rw [h2.pc, h2.pend]

theorem outlay_defuse (hs : Sane C s) (ev : ℕ) : Outlay C N s 0 (s.defuse ev) := outlay_events hs le_rfl fun _ => le_of_eq rfl

theorem outlay_drop (hs : Sane C s) (ev : ℕ) (cb : Callback) : Outlay C N s 0 (s.dropCallback ev cb) := by
  refine outlay_events hs ?_ fun _ => ?_
  · dsimp only
    cases (s.events ev).callbacks with
    | none => exact le_rfl
    | some l => exact (List.erase_sublist).countP_le
  · unfold due
    dsimp only
    rw [Option.isSome_map]
    omega

theorem ebb_defuse (hs : Sane C s) (hr : Rests s) (ev : ℕ) : Ebb C B N 0 s (s.defuse ev) :=
  ebb_quiet hr (outlay_defuse hs ev) rfl rfl fun x v hv => by rw [(thin_defuse (s := s) (ev := ev)).value]; exact hv

theorem ebb_drop (hs : Sane C s) (hr : Rests s) (ev : ℕ) {cb : Callback} (hcb : cb ≠ .stop) : Ebb C B N 0 s (s.dropCallback ev cb) :=
  ebb_quiet hr (outlay_drop hs ev cb) rfl rfl fun x v hv => by rw [(thin_drop (s := s) (ev := ev) hcb).value]; exact hv

theorem ebb_trigger (hs : Sane C s) (hr : Rests s) {ev : ℕ} (ht : s.triggered ev ≠ true) (v : Except PyErr SVal) : Ebb C B N 12 s (s.trigger ev v) := by
  refine ebb_quiet hr (outlay_trigger hs ev v) rfl rfl fun x u hu => ?_
  show (fset s.events ev _ x).value = _
  by_cases h : x = ev
  · subst h
    refine absurd ?_ ht
    unfold Sim.triggered; rw [hu]; rfl
  · rw [fset_other _ _ h]; exact hu

theorem pay_le (x : Except PyErr SVal) (pt : Pt) : pay x pt ≤ extraPay pt := by cases x <;> simp [pay]

theorem ebb_resume {pt : Pt} {x : Except PyErr SVal} (hg : Good C.ruleFiring s) (hs : Sane C s) (hr : Rests s) (hN : Screens C N s) (hp : s.points p = some pt) (hl : Loose s p)
    (hd : ∀ t v, pt.due = some t → x = .ok v → t = s.now) (hx : x = .ok .procs → (s.events (s.target p)).value = some (.ok .procs)) : Ebb C B N (pay x pt) s (s.resume C p x) := by
  obtain ⟨-, ho, -⟩ := resume_run (C := C) hg.1 hg.2 hp hl hd hx
  have h := sinks_resume (B := sels (s.resume C p x)) hg hs hr hp ho hN hx le_rfl
  exact ⟨h.sane, h.args, h.rests, h.notes, fun hc => (sinks_resume hg hs hr hp ho hN hx hc).sinks⟩

/-- What a callback costs. -/
noncomputable def cbCost (s : Sim) (cb : Callback) : ℕ := (if cb.isCheck = true then 12 else 0) + (if cb = .resume 2 ∧ s.points 2 = some .procIdle then 11 else 0)

theorem ebb_callback {ev : ℕ} {v : Except PyErr SVal} {cb : Callback} {l : List Callback} (h : Good C.ruleFiring s) (hs : Sane C s) (hr : Rests s) (hN : Screens C N s) (hp : Pending ev v (cb :: l) s) :
    Ebb C B N (cbCost s cb) s (callback C ev v s cb) := by
  have hi := h.1.1
  cases cb with
  | resume p =>
    obtain ⟨hl, ht, pt, hpt, hd⟩ := hp.res p (.head _)
    have hcost : extraPay pt ≤ cbCost s (.resume p) := by
      cases pt <;> try exact Nat.zero_le _
      have h2 := two_of_main h hpt (.inr (.inr trivial))
      subst h2
      unfold cbCost
      rw [if_pos (c := Callback.resume 2 = Callback.resume 2 ∧ s.points 2 = some Pt.procIdle) ⟨rfl, hpt⟩]
      show 11 ≤ _
      omega
    rcases v with x | v
    · have hg := good_defuse (ev := ev) h
      have h1 := ebb_defuse (B := B) (N := N) hs hr ev
      have h2 := ebb_resume (B := B) (N := N) (p := p) (pt := pt) (x := .error x) hg h1.sane h1.rests hN hpt (fun y hy => hl y ((thin_defuse (s := s) (ev := ev)).sub y |>.subset hy)) (by simp) (by simp)
      exact ebb_le (ebb_trans h1 h2) (by rw [Nat.zero_add]; exact (pay_le _ _).trans hcost)
    · refine ebb_le (ebb_resume (B := B) (N := N) (p := p) (pt := pt) (x := .ok v) h hs hr hN hpt hl (fun t u htt _ => hd t htt) fun hx => ?_) ((pay_le _ _).trans hcost)
      rw [ht, ← hx]; exact hp.val hx
  | interrupt p =>
    obtain ⟨rfl, hno⟩ := hp.intr p (.head _)
    simp only [callback]
    by_cases ht : s.triggered p = true
    · rw [if_pos ht]; exact ebb_le (ebb_refl hs hr) (Nat.zero_le _)
    · rw [if_neg ht]
      have hg := good_drop (ev := s.target p) (cb := .resume p) (by simp) h
      have hth : Thin s (s.dropCallback (s.target p) (.resume p)) := thin_drop (by simp)
      have h1 := ebb_drop (B := B) (N := N) hs hr (s.target p) (cb := .resume p) (by simp)
      have hloose : Loose (s.dropCallback (s.target p) (.resume p)) p := by
        intro x hx
        by_cases he : x = s.target p
        · subst he
          rw [cbs_drop] at hx
          have h1 := List.count_pos_iff.2 hx
          rw [List.count_erase_self] at h1
          have := hi.once (s.target p) p
          omega
        · exact he (hi.res x p ((hth.sub x).subset hx)).1.symm
      cases hpt : s.points p with
      | none =>
        have : (s.dropCallback (s.target p) (.resume p)).resume C p (.error .interrupt) = s.dropCallback (s.target p) (.resume p) := by
          unfold Sim.resume
          have : (s.dropCallback (s.target p) (.resume p)).points p = Option.none := hpt
          rw [this]
        rw [this]
        exact ebb_le h1 (Nat.zero_le _)
      | some pt =>
        have h2 := ebb_resume (B := B) (N := N) (p := p) (pt := pt) (x := .error .interrupt) hg h1.sane h1.rests hN hpt hloose (by simp) (by simp)
        exact ebb_le (ebb_trans h1 h2) (Nat.zero_le _)
  | check d =>
    simp only [callback]
    by_cases ht : s.triggered d = true
    · rw [if_pos ht]; exact ebb_le (ebb_refl hs hr) (Nat.zero_le _)
    · rw [if_neg ht]
      have hc : 12 ≤ cbCost s (.check d) := Nat.le_add_right 12 _
      rcases v with x | v
      · have h1 := ebb_defuse (B := B) (N := N) hs hr ev
        have hth : Thin s (s.defuse ev) := thin_defuse
        have ht' : (s.defuse ev).triggered d ≠ true := by unfold Sim.triggered at *; rw [hth.value]; exact ht
        exact ebb_le (ebb_trans h1 (ebb_trigger h1.sane h1.rests ht' (.error x))) (by omega)
      · exact ebb_le (ebb_trigger hs hr ht (.ok .nothing)) hc
  | build d a b =>
    have h1 := ebb_drop (B := B) (N := N) hs hr a (cb := .check d) (by simp)
    exact ebb_le (ebb_trans h1 (ebb_drop h1.sane h1.rests b (cb := .check d) (by simp))) (Nat.zero_le _)
  | stop => exact ebb_le (ebb_refl hs hr) (Nat.zero_le _)

theorem ebb_callbacks {ev : ℕ} {v : Except PyErr SVal} : ∀ (l : List Callback) {s : Sim} {c : ℕ}, Good C.ruleFiring s → Pending ev v l s → Sane C s → Rests s → Screens C N s →
    (.resume 2 ∈ l → s.points 2 = some .procIdle → 11 ≤ c) → Ebb C B N (12 * l.countP Callback.isCheck + c) s (l.foldl (callback C ev v) s)
  | [], s, c, _, _, hs, hr, _, _ => ebb_le (ebb_refl hs hr) (Nat.zero_le _)
  | cb :: l, s, c, h, hp, hs, hr, hN, hc => by
    have h1 := ebb_callback (B := B) h hs hr hN hp
    obtain ⟨a, b, q, ho, hq⟩ := good_callback C h hp
    have hN' : Screens C N (callback C ev v s cb) := fun x hx => hN x (h1.args ▸ hx)
    have h2 : 2 < s.next := by obtain ⟨-, st, c, hk⟩ := h; exact hk.main_lt
    have hcount : (cb :: l).countP Callback.isCheck = l.countP Callback.isCheck + if cb.isCheck = true then 1 else 0 := List.countP_cons
    by_cases hcb : cb = .resume 2 ∧ s.points 2 = some .procIdle
    · obtain ⟨rfl, hi⟩ := hcb
      have hnot : .resume 2 ∉ l := fun hm => by
        have := hp.once 2
        rw [List.count_cons_self] at this
        have := List.count_pos_iff.2 hm
        omega
      have h3 := ebb_callbacks l (c := 0) a b h1.sane h1.rests hN' fun hm => absurd hm hnot
      refine ebb_le (ebb_trans h1 h3) ?_
      have := hc (.head _) hi
      have hcost : cbCost s (.resume 2) = 11 := by
        unfold cbCost
        rw [if_pos (c := Callback.resume 2 = Callback.resume 2 ∧ s.points 2 = some Pt.procIdle) ⟨rfl, hi⟩]; rfl
      rw [hcount, hcost]
      omega
    · have h3 := ebb_callbacks l (c := c) a b h1.sane h1.rests hN' fun hm hi => by
        refine hc (.tail _ hm) ?_
        by_cases hq2 : q = 2
        · exfalso
          subst hq2
          rcases hq with hq | ⟨rfl | rfl, -⟩
          · omega
          · have := hp.once 2
            rw [List.count_cons_self] at this
            have := List.count_pos_iff.2 hm
            omega
          · exact (hp.intr 2 (.head _)).2 2 (.tail _ hm)
        · rw [← ho.points 2 h2 (fun h => hq2 h.symm)]; exact hi
      refine ebb_le (ebb_trans h1 h3) ?_
      unfold cbCost
      rw [if_neg hcb, hcount]
      split_ifs <;> omega

/-! ## Steps -/

theorem sane_taken (hs : Sane C s) (en : Entry) (q : List Entry) : Sane C (s.taken en q) := ⟨hs.blank, hs.proc, hs.env, hs.ne, hs.free, hs.sound⟩

theorem fuel_taken {en : Entry} {q : List Entry} (hq : s.queue = en :: q) (hlt : en.ev < s.next) :
    fuel (s.taken en q) + 1 + 12 * (s.cbs en.ev).countP Callback.isCheck + (if en.ev = s.procActivate then due (s.events s.procActivate) else 0) = fuel s := by
  have h1 := totE_events (s := s) (s' := s.taken en q) (ev := en.ev) hlt rfl rfl
  have h1 : totE (s.taken en q) + 12 * (s.cbs en.ev).countP Callback.isCheck = totE s + 12 * 0 := h1
  have h2 : tot pw (s.taken en q) = tot pw s := rfl
  have h3 : debt (s.taken en q) = debt s := rfl
  have h4 : (s.taken en q).queue.length + 1 = s.queue.length := by rw [hq]; rfl
  have h5 : due ((s.taken en q).events (s.taken en q).procActivate) + (if en.ev = s.procActivate then due (s.events s.procActivate) else 0) = due (s.events s.procActivate) := by
    show due (fset s.events en.ev _ s.procActivate) + _ = _
    by_cases h : en.ev = s.procActivate
    · rw [if_pos h, ← h, fset_same]
      have : due { s.events en.ev with callbacks := Option.none } = 0 := by simp [due]
      rw [this, Nat.zero_add]
    · rw [if_neg h, fset_other _ _ (fun h' => h h'.symm)]; rfl
  unfold fuel
  omega

/-- It becomes less. -/
def Falls (B N : ℕ) (s s' : Sim) : Prop := xs B N s' < xs B N s ∨ (xs B N s' ≤ xs B N s ∧ (ys s' < ys s ∨ (ys s' ≤ ys s ∧ fuel s' < fuel s)))

theorem xs_taken (B N : ℕ) (s : Sim) (en : Entry) (q : List Entry) : xs B N (s.taken en q) = xs B N s := rfl

theorem ys_taken (s : Sim) (en : Entry) (q : List Entry) : ys (s.taken en q) = ys s := by
  have hl : Lost (s.taken en q) ↔ Lost s := by
    unfold Lost
    have hv := (thin_taken s en q).value
    constructor
    · intro h pt hp
      obtain ⟨a, v, b, c⟩ := h pt hp
      exact ⟨a, v, (hv _).symm.trans b, c⟩
    · intro h pt hp
      obtain ⟨a, v, b, c⟩ := h pt hp
      exact ⟨a, v, (hv _).trans b, c⟩
  unfold ys
  have h1 : tot lateW (s.taken en q) = tot lateW s := rfl
  have h2 : tot pendW (s.taken en q) = tot pendW s := rfl
  have h3 : (s.taken en q).w = s.w := rfl
  rw [h1, h2, h3]
  by_cases h : Lost s
  · rw [if_pos h, if_pos (hl.2 h)]
  · rw [if_neg h, if_neg fun h' => h (hl.1 h')]

/-- The invariants. -/
structure Whole (C : Cfg) (N : ℕ) (s : Sim) : Prop where
  fine : Fine C.ruleFiring s
  sane : Sane C s
  rests : Rests s
  screens : Screens C N s

theorem whole_called {en : Entry} {q : List Entry} (h : Whole C N s) (hq : s.queue = en :: q) (hstop : .stop ∉ s.cbs en.ev) :
    Whole C N (s.called C en q) ∧ Notes (s.taken en q) (s.called C en q) ∧ (sels (s.called C en q) ≤ B → Falls B N s (s.called C en q)) := by
  have hen : en ∈ s.queue := by rw [hq]; exact .head _
  have hf := fine_called C h.fine hq hstop
  have hfu := fuel_taken hq (h.fine.1.known en hen)
  have hxs := xs_taken B N s en q
  have hys := ys_taken s en q
  have hset : Ebb C B N (12 * (s.cbs en.ev).countP Callback.isCheck + (if en.ev = s.procActivate then due (s.events s.procActivate) else 0)) (s.taken en q) (s.called C en q) := by
    have hr : Rests (s.taken en q) := h.rests
    rcases h.fine.1.grid en hen with hg | hg
    · have hft := fine_taken h.fine hq
      refine ebb_callbacks (s.cbs en.ev) (s := s.taken en q) ⟨⟨hft.1, hg⟩, hft.2⟩ (pending_taken h.fine.1 hq) (sane_taken h.sane en q) hr h.screens fun hm hi => ?_
      obtain ⟨ht, -⟩ := h.fine.1.res en.ev 2 hm
      have he : en.ev = s.procActivate := ht.symm.trans (h.rests hi)
      rw [if_pos he, ← he]
      have hv := h.fine.1.queued en hen
      have hcb : (s.events en.ev).callbacks.isSome = true := by
        cases hcb : (s.events en.ev).callbacks with
        | none => unfold Sim.cbs at hm; rw [hcb] at hm; cases hm
        | some l => rfl
      unfold due
      rw [if_pos ⟨hv, hcb⟩]
    · have : s.cbs en.ev = [] := by
        have := hg.resolve_left hstop
        simp [Sim.cbs, this]
      unfold Sim.called
      rw [this]
      exact ebb_le (ebb_refl (sane_taken h.sane en q) hr) (Nat.zero_le _)
  refine ⟨⟨hf.1, hset.sane, hset.rests, fun a ha => h.screens a (hset.args ▸ ha)⟩, hset.notes, fun hc => ?_⟩
  have := hset.sinks hc
  unfold Sinks at this
  unfold Falls
  rw [← hxs, ← hys]
  omega

theorem whole_taken {en : Entry} {q : List Entry} (h : Whole C N s) (hq : s.queue = en :: q) : Whole C N (s.taken en q) :=
  ⟨fine_taken h.fine hq, sane_taken h.sane en q, h.rests, h.screens⟩

end Verif
