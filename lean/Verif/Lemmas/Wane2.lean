import Verif.Lemmas.Wane
/-! # Whichever process goes on, what is left becomes less -/
namespace Verif
open Verif.Spec Classical

variable {C : Cfg} {B N n m p : ℕ} {s s' : Sim}

/-- The first statement after a rule was selected reports it. -/
theorem notes_localRun (hs : Sane C s) (name : String) (o : Out Mach YV Unit) : Notes s (localRun name o s).1 := by
  cases o with
  | ret w a => exact says_same rfl rfl
  | raise w y => exact says_same rfl rfl
  | yield w y k =>
    cases y with
    | ev e =>
      obtain ⟨s1, -, h2, -, -, -, h6⟩ := localRun_ev (N := 0) hs (w := w) (e := e) (k := k) (name := name)
      rcases h6 with ⟨ev, h6⟩ | ⟨y, h6⟩ <;> rw [h6] <;> exact h2.trace
    | procs => exact says_same rfl rfl
    | cont d => exact says_same rfl rfl
    | nothing => exact says_same rfl rfl

theorem sels_announced (hs : Sane C s) {e : Ev} {r : String} (he : e.act = .selected r) : sels s + 1 ≤ sels (announced e s).1 := by
  set s1 : Sim := { s with trace := s.trace ++ [(s.now, e)] } with hs1
  have hp : printEvent e s = (s1, .ok ()) := by
    unfold printEvent
    rw [he]; rfl
  have heq : announced e s = (activateProc e >>= fun _ => envInteraction) s1 := by
    show SimM.bind (printEvent e) (fun _ => SimM.bind (activateProc e) fun _ => envInteraction) s = _
    rw [SimM.bind, hp]
    rfl
  have hsane : Sane C s1 := ⟨hs.blank, hs.proc, hs.env, hs.ne, hs.free, hs.sound⟩
  have := (charges_bind (C := C) (N := 0) (n := 12) (m := 1) (charges_activate (e := e)) fun _ => charges_interaction) s1 hsane
  have := sels_notes this.2.1.trace
  rw [heq]
  refine le_trans ?_ this
  unfold sels
  rw [hs1]
  dsimp only
  rw [List.countP_append]
  have : List.countP (fun x : ℚ × Ev => x.2.act.isSel) [(s.now, e)] = 1 := by
    rw [List.countP_singleton]; dsimp only; rw [he]; rfl
  omega

theorem sels_resume (hs : Sane C s) {e : Ev} {k : Mach → Out Mach YV Unit} {v : SVal} {r : String} (he : e.act = .selected r) : sels s + 1 ≤ sels (localResume procName e k (.ok v) s).1 := by
  have h1 := sels_announced hs he
  have h2 := charges_announced' (C := C) (N := 0) (e := e) s hs
  rw [localResume_ok]
  rcases hr : announced e s with ⟨s1, y | u⟩
  · rw [hr] at h1; exact h1
  · rw [hr] at h1 h2
    exact h1.trans (sels_notes (notes_localRun h2.1 _ _))

theorem step_sel {a : Act} (h : a.step = .sel) : ∃ r, a = .selected r := by
  cases a <;> first | exact ⟨_, rfl⟩ | cases h

section
variable {pt : Pt} {x : Except PyErr SVal} (hg : Good C.ruleFiring s) (hs : Sane C s) (hr : Rests s) (hp : s.points p = some pt) (ho : Others p s (s.resume C p x))
include hg hs hr hp ho

/-- A cycle after a rule was selected. -/
theorem sinks_free {e : Ev} {k : Mach → Out Mach YV Unit} (hpt : pt = .localWait procName e k) (hk : Late n k) (hst : e.act.step = .sel ∨ (e.act.step = .late ∧ n = lives k))
    (hcap : sels (s.resume C p x) ≤ B) : Ebbs C B N (pay x pt) s (s.resume C p x) := by
  subst hpt
  have hp2 : p ≠ 2 := fun h => by
    subst h
    rcases two_main hg hp with h | (h | h) | h <;> first | cases h | exact h.elim
  have h2 : 2 < s.next := by obtain ⟨-, st, c, hk⟩ := hg; exact hk.main_lt
  obtain ⟨hf, hlate⟩ := freely_rule (N := N) hs (e := e) hk x
  have hlt := points_lt hg.1.1 hp
  have hpt := resume_parts (N := N) (x := x) hp hf.sane hf.level.1 hlt fun ev pt' he => (hf.next ev pt' he).1
  have t1 := hpt.tot lateW
  have t2 := hpt.tot pendW
  have t3 := hpt.tot (envW N)
  rw [nextW_zero (r := (code C (.localWait procName e k) x s).2) fun ev pt' he => (hf.next ev pt' he).2.2] at t2
  rw [nextW_zero (r := (code C (.localWait procName e k) x s).2) fun ev pt' he => (hf.next ev pt' he).2.1 N] at t3
  have l1 : tot lateW (code C (.localWait procName e k) x s).1 = tot lateW s := hf.level.late
  have l2 : tot pendW (code C (.localWait procName e k) x s).1 = tot pendW s := hf.level.pend
  have l3 : tot (envW N) (code C (.localWait procName e k) x s).1 = tot (envW N) s := hf.level.env
  have l4 : pcount (code C (.localWait procName e k) x s).1.w = pcount s.w := hf.level.pc
  have e3 : envW N (.localWait procName e k) = 0 := rfl
  have hnote : Notes s (s.resume C p x) := says_trans hf.level.trace hpt.notes
  refine ⟨hpt.sane, hpt.args.trans hf.level.args, rests_others h2 hp2 ho (hpt.act.trans hf.level.act) hr, hnote, ?_⟩
  rcases hst with hst | ⟨hst, rfl⟩
  · obtain ⟨r, her⟩ := step_sel hst
    cases x with
    | ok v =>
      have a1 := sels_resume hs (k := k) (v := v) her
      have a2 := sels_notes hpt.notes
      have a3 : sels s + 1 ≤ sels (s.resume C p (.ok v)) := a1.trans a2
      refine .inl ?_
      unfold xs
      omega
    | error y =>
      have hm := not_modular_wait (p := p) (name := procName) (e := e) (k := k) (by rw [hst]; simp)
      have hcode : code C (.localWait procName e k) (.error y) s = (s, .ok (.done .nothing)) ∨ code C (.localWait procName e k) (.error y) s = (s, .error y) := by
        cases y <;> first | exact .inl rfl | exact .inr rfl
      have e1 : lateW (.localWait procName e k) = 0 := by simp [lateW, hst]
      have hfu := hpt.fuel
      have hlost : Lost (s.resume C p (.error y)) ∧ toll (code C (.localWait procName e k) (.error y) s).2 = 0 ∧ nextW lateW (code C (.localWait procName e k) (.error y) s).2 = 0 ∧ (code C (.localWait procName e k) (.error y) s).1 = s := by
        rcases hcode with h | h
        · exact ⟨lost_child hg hp hm ho (hpt.done .nothing (by rw [h])).2 (by simp), by rw [h]; rfl, by rw [h]; rfl, by rw [h]⟩
        · exact ⟨lost_child hg hp hm ho (hpt.raised y (by rw [h])).2 (by simp), by rw [h]; rfl, by rw [h]; rfl, by rw [h]⟩
      obtain ⟨b1, b2, b3, b4⟩ := hlost
      refine .inr ⟨xs_le hnote (by omega), .inr ⟨ys_le (by omega) (.inl b1), ?_⟩⟩
      rw [b2, b4] at hfu
      omega
  · have e1 : lateW (.localWait procName e k) = lives k + 1 := by simp [lateW, hst]
    have e2 : pendW (.localWait procName e k) = 0 := by simp [pendW, hst]
    have hn : nextW lateW (code C (.localWait procName e k) x s).2 ≤ lives k := by
      rcases hcr : (code C (.localWait procName e k) x s).2 with e' | ⟨ev, pt'⟩ | v
      · exact Nat.zero_le _
      · exact hlate ev pt' hcr
      · exact Nat.zero_le _
    refine .inr ⟨xs_le hnote (by omega), .inl (ys_lt (by omega) (.inr ⟨lost_others h2 hp2 ho, ?_⟩))⟩
    rw [hpt.w, l4]
    omega

/-- Process number 2 gets the list. -/
theorem sinks_main (hc : Cyc pt) (hx : x = .ok .procs → (s.events (s.target p)).value = some (.ok .procs)) : Ebbs C B N (pay x pt) s (s.resume C p x) := by
  obtain rfl := two_of_main hg hp (.inr (.inl hc))
  have hlt := points_lt hg.1.1 hp
  have e0 : Light pt := by rcases hc with rfl | rfl <;> exact ⟨rfl, rfl, fun _ => rfl⟩
  obtain ⟨l1, l2, l3⟩ := e0
  by_cases hxp : x = .ok .procs
  · subst hxp
    have hv := hx rfl
    obtain ⟨g1, g2, g3, g4, g5⟩ := loops_code (N := N) hs hc
    have hpt := resume_parts (N := N) hp g1 g2 hlt fun ev pt' he => (g4 ev pt' he).1
    have t1 := hpt.tot lateW
    have t2 := hpt.tot pendW
    have t3 := hpt.tot (envW N)
    rw [nextW_zero fun ev pt' he => (g4 ev pt' he).2.1, l1, g2.late] at t1
    rw [nextW_zero fun ev pt' he => (g4 ev pt' he).2.2.1, l2, g2.pend] at t2
    rw [nextW_zero fun ev pt' he => (g4 ev pt' he).2.2.2 N, l3 N, g2.env] at t3
    have hnote : Notes s (s.resume C 2 (.ok .procs)) := says_trans g2.trace hpt.notes
    have hnl : ¬ Lost s := fun h => by
      obtain ⟨-, v, a, b⟩ := h pt hp
      rw [hv] at a
      exact b (Option.some.inj a).symm
    have hz := pend_zero hg hp hc (by rw [hv]; rfl)
    refine ⟨hpt.sane, hpt.args.trans g2.args, fun hi => ?_, hnote, .inr ⟨xs_le hnote (by omega), ?_⟩⟩
    · rcases hcr : (code C pt (.ok .procs) s).2 with e | ⟨ev, pt'⟩ | v
      · rw [(hpt.raised e hcr).1] at hi; cases hi
      · obtain ⟨a, b⟩ := hpt.wait ev pt' hcr
        rw [a] at hi
        cases hi
        rw [b, hpt.act]
        exact g3 ev hcr
      · rw [(hpt.done v hcr).1] at hi; cases hi
    · rcases g5 with g5 | ⟨g5, g6⟩
      · left
        unfold ys
        rw [if_neg hnl, hpt.w]
        split_ifs <;> omega
      · right
        refine ⟨ys_le (by omega) (.inr ⟨fun h => absurd h hnl, by rw [hpt.w, g5]; omega⟩), ?_⟩
        have := hpt.fuel
        omega
  · obtain ⟨e, he⟩ := code_failed (C := C) hc hxp s
    have hpt := resume_parts (N := N) (x := x) hp (by rw [he]; exact hs) (by rw [he]; exact (level_refl s).1) hlt (by rw [he]; exact fun _ _ h => by cases h)
    have t1 := hpt.tot lateW
    have t3 := hpt.tot (envW N)
    have hfu := hpt.fuel
    have hno := hpt.notes
    have ha := hpt.args
    have hend := hpt.raised e (by rw [he])
    rw [he] at t1 t3 hfu hno ha
    have t1 : tot lateW (s.resume C 2 x) + lateW pt = tot lateW s + 0 := t1
    have t3 : tot (envW N) (s.resume C 2 x) + envW N pt = tot (envW N) s + 0 := t3
    have hfu : fuel (s.resume C 2 x) + wt pt ≤ fuel s + 0 := hfu
    refine ⟨hpt.sane, ha, (fun hi => by rw [hend.1] at hi; cases hi), hno, .inr ⟨xs_le hno (by omega), .inr ⟨ys_le (by omega) (.inl fun q hq => ?_), by omega⟩⟩⟩
    rw [hend.1] at hq; cases hq

/-- Whichever process goes on. -/
theorem sinks_resume (hN : Screens C N s) (hx : x = .ok .procs → (s.events (s.target p)).value = some (.ok .procs)) (hcap : sels (s.resume C p x) ≤ B) :
    Ebbs C B N (pay x pt) s (s.resume C p x) := by
  have hd := hs.sound p pt hp
  by_cases hc : Cheap pt
  · exact sinks_cheap hg hs hr hp ho hc
  have hp2 : (∃ name g, pt = .localNew name g) ∨ (∃ name e k, pt = .localWait name e k) → p ≠ 2 := fun h => by
    rintro rfl
    rcases h with ⟨_, _, rfl⟩ | ⟨_, _, _, rfl⟩ <;> rcases two_main hg hp with h | (h | h) | h <;> first | cases h | exact h.elim
  cases pt with
  | procFirst => exact sinks_main hg hs hr hp ho (.inl rfl) hx
  | procAgain => exact sinks_main hg hs hr hp ho (.inr rfl) hx
  | envNew => exact sinks_env hg hs hr hp ho hN (.inl rfl)
  | envWait pro k => exact sinks_env hg hs hr hp ho hN (.inr ⟨pro, k, rfl⟩)
  | localNew name g =>
    have hname : name = procName := not_not.1 hc
    subst hname
    obtain ⟨t, rfl⟩ := hd.1 rfl
    refine sinks_turn hg hs hr hp ho (hp2 (.inl ⟨_, _, rfl⟩)) (not_modular_new s.w) rfl (fun _ => rfl) ?_
    have hw : wt (.localNew procName (genProcedural C t)) = 4 := by simp [wt]
    have hq : pendW (.localNew procName (genProcedural C t)) = 0 := rfl
    rw [hw, hq]
    cases x with
    | ok v => exact turn_new hs t v
    | error y => exact ⟨hs, (level_refl s).1, rfl, by show fuel s + 0 ≤ _; omega, .inl ⟨y, rfl⟩⟩
  | localWait name e k =>
    have hname : name = procName := not_not.1 hc
    subst hname
    have hw := hd.1 rfl
    unfold RuleWait at hw
    cases hst : e.act.step with
    | conf =>
      rw [hst] at hw
      refine sinks_turn hg hs hr hp ho (hp2 (.inr ⟨_, _, _, rfl⟩)) (not_modular_wait (by rw [hst]; simp)) (by simp [lateW, hst]) (fun _ => rfl) ?_
      have h1 : wt (.localWait procName e k) = 3 := by simp [wt, hst]
      have h2 : pendW (.localWait procName e k) = 1 := by simp [pendW, hst]
      rw [h1, h2]
      exact turn_conf hs hw.1 hw.2 x
    | none =>
      rw [hst] at hw
      refine sinks_turn hg hs hr hp ho (hp2 (.inr ⟨_, _, _, rfl⟩)) (not_modular_wait (by rw [hst]; simp)) (by simp [lateW, hst]) (fun _ => rfl) ?_
      have h1 : wt (.localWait procName e k) = 1 := by simp [wt, hst]
      have h2 : pendW (.localWait procName e k) = 0 := by simp [pendW, hst]
      rw [h1, h2]
      exact turn_none hs hw.1 hw.2 x
    | sel =>
      rw [hst] at hw
      obtain ⟨n, hw⟩ := hw
      exact sinks_free hg hs hr hp ho rfl hw (.inl hst) hcap
    | late =>
      rw [hst] at hw
      obtain ⟨n, hw⟩ := hw
      exact sinks_free hg hs hr hp ho rfl ⟨fun w => brief_lives hw.1 w, hw.2⟩ (.inr ⟨hst, rfl⟩) hcap
  | _ => exact absurd trivial hc

end

end Verif
