import Verif.Lemmas.ReadyRun
import Verif.Lemmas.SimPreempt
import Verif.Spec.Strike
/-! # What interrupted processes do -/
namespace Verif
open Verif.Spec

variable {rf : ℚ} {s s' : Sim} {p : ℕ}

theorem takeFor_first {n : String} : ∀ {l : List PItem} {i : ℕ} {d : Desc} {rest : List PItem}, takeFor n l = .ok (some ((i, d), rest)) → TakesFirst n d l rest
  | [], i, d, rest, h => by cases h
  | .procedural :: r, i, d, rest, h => by
    unfold takeFor at h
    split at h
    · cases h
    · cases ht : takeFor n r with
      | error x => rw [ht] at h; cases h
      | ok o =>
        rw [ht] at h
        rcases o with _ | ⟨⟨j, d'⟩, rest'⟩
        · cases h
        · obtain ⟨k, l1, l2, rfl, h2, h3⟩ := takeFor_first ht
          have h := Except.ok.inj h
          simp only [Option.map_some, Option.some.injEq, Prod.mk.injEq] at h
          obtain ⟨⟨-, rfl⟩, rfl⟩ := h
          exact ⟨k, .procedural :: l1, l2, rfl, by rw [h2]; rfl, by simpa using h3⟩
  | .gen m j d' :: r, i, d, rest, h => by
    unfold takeFor at h
    split at h
    · rename_i hk
      have h := Except.ok.inj h
      simp only [Option.some.injEq, Prod.mk.injEq] at h
      obtain ⟨⟨rfl, rfl⟩, rfl⟩ := h
      subst hk
      exact ⟨j, [], r, rfl, rfl, by simp⟩
    · rename_i hk
      cases ht : takeFor n r with
      | error x => rw [ht] at h; cases h
      | ok o =>
        rw [ht] at h
        rcases o with _ | ⟨⟨j', d''⟩, rest'⟩
        · cases h
        · obtain ⟨k, l1, l2, rfl, h2, h3⟩ := takeFor_first ht
          have h := Except.ok.inj h
          simp only [Option.map_some, Option.some.injEq, Prod.mk.injEq] at h
          obtain ⟨⟨-, rfl⟩, rfl⟩ := h
          refine ⟨k, .gen m j d' :: l1, l2, rfl, by rw [h2]; rfl, fun a b hm => ?_⟩
          rcases List.mem_cons.1 hm with hm | hm
          · cases hm; exact hk rfl
          · exact h3 a b hm

theorem takeFor_ok {n : String} (hn : n ≠ "P") : ∀ l : List PItem, ∃ o, takeFor n l = .ok o
  | [] => ⟨_, rfl⟩
  | .procedural :: r => by
    obtain ⟨o, ho⟩ := takeFor_ok hn r
    unfold takeFor
    rw [if_neg hn, ho]; exact ⟨_, rfl⟩
  | .gen m j d' :: r => by
    obtain ⟨o, ho⟩ := takeFor_ok hn r
    unfold takeFor
    split
    · exact ⟨_, rfl⟩
    · rw [ho]; exact ⟨_, rfl⟩

theorem takeFor_some {n : String} (hn : n ≠ "P") {l : List PItem} (hl : 1 ≤ orders n l) : ∃ i d rest, takeFor n l = .ok (some ((i, d), rest)) := by
  obtain ⟨o, ho⟩ := takeFor_ok hn l
  rcases o with _ | ⟨⟨i, d⟩, rest⟩
  · rw [orders_none ho] at hl; omega
  · exact ⟨i, d, rest, ho⟩

/-- A module that is active takes a request. -/
theorem extraLoop_takes (C : Cfg) {name : String} {i a : ℕ} {d : Desc} {rest : List PItem} (hq : takeFor name s.startedList = .ok (some ((i, d), rest)))
    (ha : alook name s.activate = some a) (hb : s.triggered a = true) :
    extraLoop C name s = ((process (.localNew name (d.run C)) (s.setStarted rest)).1, .ok (.wait s.next (.extraMain name s.next))) := by
  have h4 : (s.setStarted rest).activate = s.activate := by unfold Sim.setStarted; split <;> rfl
  have h5 : (s.setStarted rest).triggered a = s.triggered a := by unfold Sim.setStarted; split <;> rfl
  have h6 : (s.setStarted rest).next = s.next := by unfold Sim.setStarted; split <;> rfl
  unfold extraLoop
  show (match takeFor name s.startedList with | .error x => _ | .ok Option.none => _ | .ok (some ((_, d), rest)) => _ : SimM Res) s = _
  rw [hq]
  show SimM.bind (activateOf name) _ (s.setStarted rest) = _
  have h7 : activateOf name (s.setStarted rest) = (s.setStarted rest, .ok a) := by unfold activateOf; rw [h4, ha]
  simp only [SimM.bind, h7]
  show (if (s.setStarted rest).triggered a then _ else _ : SimM Res) (s.setStarted rest) = _
  rw [h5, hb]
  show ((process (.localNew name (d.run C)) (s.setStarted rest)).1, (Except.ok (Res.wait (s.setStarted rest).next (.extraMain name (s.setStarted rest).next)) : Except PyErr Res)) = _
  rw [h6]

theorem points_takes (C : Cfg) (s : Sim) (name : String) (d : Desc) (rest : List PItem) :
    (process (.localNew name (d.run C)) (s.setStarted rest)).1.points s.next = some (.localNew name (d.run C)) ∧ (process (.localNew name (d.run C)) (s.setStarted rest)).1.startedList = rest := by
  have h6 : (s.setStarted rest).next = s.next := by unfold Sim.setStarted; split <;> rfl
  refine ⟨?_, ?_⟩
  · rw [process_eq]
    show fset _ (s.setStarted rest).next _ s.next = _
    rw [h6, fset_same]
  · exact startedList_setStarted s rest

/-- An interrupted module with a process goes on with the next request. -/
theorem extraAfterMain_takes (C : Cfg) {name : String} {pro i a : ℕ} {d : Desc} {rest : List PItem} (hq : takeFor name s.startedList = .ok (some ((i, d), rest)))
    (ha : alook name s.activate = some a) (hb : s.triggered a = true) :
    ∃ s1 new, extraAfterMain C name pro (.error .interrupt) s = (s1, .ok (.wait new (.extraMain name new))) ∧
      s1.points new = some (.localNew name (d.run C)) ∧ s.next ≤ new ∧ s1.startedList = rest := by
  by_cases ht : s.triggered pro = true
  · refine ⟨_, s.next, ?_, (points_takes C s name d rest).1, le_rfl, (points_takes C s name d rest).2⟩
    rw [← extraLoop_takes C hq ha hb]
    show (if s.triggered pro then _ else _ : SimM Res) s = _
    rw [ht]; rfl
  · have ht : s.triggered pro = false := by simpa using ht
    obtain ⟨hok, hst⟩ := struck_interrupt ht
    have heq : interruptProcess pro s = ((s.alloc ⟨some (.error .interrupt), true, some [.interrupt pro]⟩).schedule s.next true 0, .ok ()) := by
      simp [interruptProcess, ht]
    have hl : (interruptProcess pro s).1.startedList = s.startedList := by rw [heq]; rfl
    have hact : (interruptProcess pro s).1.activate = s.activate := by rw [heq]; rfl
    have hnext : (interruptProcess pro s).1.next = s.next + 1 := by rw [heq]; rfl
    have htr : (interruptProcess pro s).1.triggered a = true := by
      rw [heq]
      show ((s.alloc _).events a).value.isSome = true
      by_cases hx : a = s.next
      · subst hx; rw [events_alloc_new]; rfl
      · rw [events_alloc_old hx]; exact hb
    refine ⟨_, (interruptProcess pro s).1.next, ?_, (points_takes C (interruptProcess pro s).1 name d rest).1, by rw [hnext]; omega, (points_takes C (interruptProcess pro s).1 name d rest).2⟩
    rw [← extraLoop_takes C (s := (interruptProcess pro s).1) (by rw [hl]; exact hq) (by rw [hact]; exact ha) htr]
    show (if s.triggered pro then _ else SimM.bind (interruptProcess pro) _ : SimM Res) s = _
    rw [ht]
    simp only [Bool.false_eq_true, if_false, SimM.bind]
    rcases hx : interruptProcess pro s with ⟨s1, r⟩
    rw [hx] at hok
    cases hok
    rfl

/-- A step that interrupts a process. -/
theorem struck_step (C : Cfg) (h : Ready (fun _ => 0) (fun _ => False) s) (hf : Fine C.ruleFiring s) (ha : Awake (fun _ => False) s) (hi : Interrupts s p) (hp : s.points p ≠ Option.none) (hl : Stepped.leads (s.step C) s') :
    ∃ pt s1, s.points p = some pt ∧ s' = s1.resume C p (.error .interrupt) ∧ Ready (fun _ => 0) (fun r => r = p) s1 ∧ Primed p pt (.error .interrupt) s1 ∧ 0 < s.strikes p ∧ pt.isNew = false ∧ (pt.helper = true ∨ pt.module.isSome = true) ∧
      s1.startedList = s.startedList ∧ s'.now = s.now ∧ s.next = s1.next := by
  obtain ⟨en, q, hq, l, hc, hm⟩ := hi
  have hm : .interrupt p ∈ s.cbs en.ev := by unfold Sim.cbs; rw [hc]; exact hm
  have hen : en ∈ s.queue := by rw [hq]; exact .head _
  obtain ⟨hcb, htr, hlt, hsoft⟩ := h.poised.intr en.ev p hm
  obtain ⟨hu, hnow⟩ := h.poised.now en hen p hm
  obtain ⟨hv, _, hstop⟩ := hf.1.intr en.ev p hm
  obtain ⟨pt, hpt⟩ := Option.ne_none_iff_exists'.1 hp
  obtain ⟨h1, h2⟩ := primed_struck h hf ha hq hm hpt
  have hst : 0 < s.strikes p := by
    have := strikes_taken hq p
    rw [if_pos hm] at this; omega
  have hs' : s' = s.called C en q := by
    rcases step_cases (C := C) (s := s) rfl with ⟨_, he⟩ | ⟨en', q', hq', hcase⟩
    · rw [hq] at he; cases he
    · rw [hq] at hq'
      cases hq'
      rcases hcase with ⟨hst, _⟩ | ⟨_, hr | ⟨x, hr⟩⟩
      · exact absurd hst hstop
      · rw [hr] at hl
        rcases hl with hl | hl | ⟨_, hl⟩ <;> cases hl
        rfl
      · rw [hr] at hl
        rcases hl with hl | hl | ⟨_, hl⟩ <;> cases hl
        rfl
  refine ⟨pt, _, hpt, ?_, h1, h2, hst, ?_, hsoft.2 pt hpt, rfl, ?_, rfl⟩
  · rw [hs']
    unfold Sim.called
    rw [hcb, hv]
    show callback C en.ev (.error .interrupt) (s.taken en q) (.interrupt p) = _
    have ht : ¬ (s.taken en q).triggered p = true := by
      rw [triggered_taken]
      unfold Sim.triggered
      rw [hf.1.live p (by rw [hpt]; rfl)]; simp
    unfold callback
    dsimp only
    rw [if_neg ht]
    rfl
  · cases hn : pt.isNew with
    | false => rfl
    | true =>
      obtain ⟨_, x, hx, hxe, hxu, hxt⟩ := h.poised.init p pt hpt hn id
      have hs := h.poised.sorted
      have ho := h.poised.ord
      rw [hq] at hs ho hx
      rcases List.mem_cons.1 hx with rfl | hx
      · omega
      · have hle := upTo_le ((List.pairwise_cons.1 hs).1 x hx)
        have := (List.pairwise_cons.1 ho).1 x hx hu hxu (le_antisymm hle (hxt.trans hnow.ge))
        omega
  · rw [hs']
    exact (fine_called C hf hq hstop).2.now.trans hnow

/-- What becomes of an interrupted process. -/
theorem struck_cases (C : Cfg) (h : Ready (fun _ => 0) (fun _ => False) s) (hf : Fine C.ruleFiring s) (ha : Awake (fun _ => False) s) (hi : Interrupts s p) (hp : s.points p ≠ Option.none) (hl : Stepped.leads (s.step C) s') :
    s'.now = s.now ∧ ((∃ n, CalledUp s p n ∧ s'.points p = Option.none ∧ (s'.events p).value = some (.error .interrupt)) ∨
    (∃ n, WorksFor s p n ∧ (n = "P" ∨ ∃ d new, TakesFirst n d s.startedList s'.startedList ∧ s'.points p = some (.extraMain n new) ∧ s'.target p = new ∧ s'.points new = some (.localNew n (d.run C)) ∧ s.points new = Option.none)) ∨
    ((∃ pt, s.points p = some pt ∧ pt.helper = true) ∧ s'.points p = Option.none ∧ (s'.events p).value = some (.ok .nothing))) := by
  obtain ⟨pt, s1, hpt, rfl, hr, hpr, hst, hnew, hsoft, hsl, hnow, hnext⟩ := struck_step C h hf ha hi hp hl
  have hends : ∀ (t : Sim) (v : Except PyErr SVal), (t.ends p v).points p = Option.none ∧ ((t.ends p v).events p).value = some v := fun t v =>
    ⟨fset_same _ _ _, by show (fset _ _ _ _ : SEv).value = _; rw [fset_same]⟩
  have hwork : ∀ n, pt.working = some n → n ≠ "P" → ∃ i d rest a, takeFor n s1.startedList = .ok (some ((i, d), rest)) ∧ alook n s1.activate = some a ∧ s1.triggered a = true := fun n hn hP => by
    obtain ⟨⟨a, a1, a2⟩, ho⟩ := hpr.work n hn
    have : 1 ≤ orders n s1.startedList := by
      rcases ho with ho | ho
      · have := (h.poised.busy p pt n hpt id hn).2
        rw [← hsl] at this; omega
      · omega
    obtain ⟨i, d, rest, ht⟩ := takeFor_some hP this
    exact ⟨i, d, rest, a, ht, a1, a2⟩
  have hborn : p < s1.next := (Nat.lt_succ_self _).trans (hr.poised.born p pt hpr.point)
  have hwait : ∀ {n : String} {d : Desc} {rest : List PItem} {i new : ℕ} {t : Sim}, takeFor n s1.startedList = .ok (some ((i, d), rest)) → s1.next ≤ new → s.next ≤ s1.next → t.points new = some (.localNew n (d.run C)) → t.startedList = rest →
      ∃ d new', TakesFirst n d s.startedList (t.waits p new (.extraMain n new)).startedList ∧ (t.waits p new (.extraMain n new)).points p = some (.extraMain n new') ∧ (t.waits p new (.extraMain n new)).target p = new' ∧
        (t.waits p new (.extraMain n new)).points new' = some (.localNew n (d.run C)) ∧ s.points new' = Option.none := fun {n d rest i new t} h1 h2 h3 h4 h5 => by
    refine ⟨d, new, ?_, fset_same _ _ _, fset_same _ _ _, ?_, (h.blank new (h3.trans h2)).2⟩
    · have : (t.waits p new (.extraMain n new)).startedList = rest := h5
      rw [this, ← hsl]; exact takeFor_first h1
    · exact (fset_other _ _ (by omega)).trans h4
  have hnext := hnext.le
  refine ⟨hnow, ?_⟩
  rw [resume_eq C hpr.point]
  cases pt with
  | extraIdle n => exact .inl ⟨n, ⟨hpt, (h.poised.idle p n hpt id).2 hst⟩, hends s1 (.error .interrupt)⟩
  | extraMain n pro =>
    refine .inr (.inl ⟨n, .inl ⟨pro, hpt⟩, ?_⟩)
    by_cases hP : n = "P"
    · exact .inl hP
    · obtain ⟨i, d, rest, a, ht, a1, a2⟩ := hwork n rfl hP
      obtain ⟨t, new, he, b1, b2, b3⟩ := extraAfterMain_takes C (pro := pro) ht a1 a2
      have he : code C (.extraMain n pro) (.error .interrupt) s1 = _ := he
      rw [he]
      exact .inr (hwait ht b2 hnext b1 b3)
  | extraCont n =>
    refine .inr (.inl ⟨n, .inr hpt, ?_⟩)
    by_cases hP : n = "P"
    · exact .inl hP
    · obtain ⟨i, d, rest, a, ht, a1, a2⟩ := hwork n rfl hP
      have he : code C (.extraCont n) (.error .interrupt) s1 = _ := extraLoop_takes C ht a1 a2
      rw [he]
      exact .inr (hwait ht le_rfl hnext (points_takes C s1 n d rest).1 (points_takes C s1 n d rest).2)
  | localWait n ev k => exact .inr (.inr ⟨⟨_, hpt, rfl⟩, hends s1 (.ok .nothing)⟩)
  | envProc ev =>
    refine .inr (.inr ⟨⟨_, hpt, rfl⟩, ?_⟩)
    have : ∃ t, code C (.envProc ev) (.error .interrupt) s1 = (t, .ok (.done .nothing)) := by
      show ∃ t, SimM.bind (activateProc ev) (fun _ => (pure (Res.done .nothing) : SimM Res)) s1 = (t, Except.ok (Res.done .nothing))
      unfold SimM.bind
      rcases activateProc_cases ev with he | he <;> rw [he]
      · exact ⟨_, rfl⟩
      · by_cases ht : s1.triggered s1.procActivate = true
        · simp only [if_pos ht]; exact ⟨_, rfl⟩
        · simp only [if_neg ht, succeed]; exact ⟨_, rfl⟩
    obtain ⟨t, ht⟩ := this
    rw [ht]
    exact hends t (.ok .nothing)
  | procNew => cases hnew
  | extraNew n => cases hnew
  | localNew n g => cases hnew
  | envNew => cases hnew
  | envProcNew e => cases hnew
  | procFirst => rcases hsoft with h | h <;> cases h
  | procIdle => rcases hsoft with h | h <;> cases h
  | procSpin n => rcases hsoft with h | h <;> cases h
  | procAgain => rcases hsoft with h | h <;> cases h
  | envWait pro k => rcases hsoft with h | h <;> cases h

/-! ## Until the interruption -/

theorem unstruck_callbacks (C : Cfg) {ev x : ℕ} {v : Except PyErr SVal} : ∀ (l : List Callback) {s : Sim}, Good C.ruleFiring s → Pending ev v l s → x < s.next →
    .resume x ∉ l → .interrupt x ∉ l → (l.foldl (callback C ev v) s).points x = s.points x ∧ (Struck s x → Struck (l.foldl (callback C ev v) s) x)
  | [], _, _, _, _, _, _ => ⟨rfl, id⟩
  | cb :: l, s, h, hpe, hx, hr, hn => by
    obtain ⟨h1, h2, q, ho, hq⟩ := good_callback C h hpe
    have hst := stays_others ho (hq.imp (fun h => h.ge) fun h => h.2)
    have hxq : x ≠ q := by
      rintro rfl
      rcases hq with hq | ⟨hq | hq, -⟩
      · omega
      · exact hr (by rw [hq]; exact .head _)
      · exact hn (by rw [hq]; exact .head _)
    obtain ⟨h3, h4⟩ := unstruck_callbacks C l h1 h2 (hx.trans_le hst.next) (fun hm => hr (.tail _ hm)) (fun hm => hn (.tail _ hm))
    exact ⟨h3.trans (ho.points x hx hxq), fun hs => h4 (struck_stays h.1.1 hs hst)⟩

/-- A process with an interruption in the schedule is left alone until it is interrupted, which happens at once. -/
theorem struck_alone (C : Cfg) {pt : Pt} (h : Ready (fun _ => 0) (fun _ => False) s) (hf : Fine C.ruleFiring s) (hp : s.points p = some pt) (hn : pt.isNew = false) (hs : Struck s p) (hl : Stepped.leads (s.step C) s') :
    Interrupts s p ∨ (s'.now = s.now ∧ s'.points p = s.points p ∧ Struck s' p) := by
  rcases step_cases (C := C) (s := s) rfl with ⟨_, he⟩ | ⟨en, q, hq, hcase⟩
  · obtain ⟨en, hen, _⟩ := hs
    rw [he] at hen; cases hen
  · obtain ⟨hu, hnow, hor⟩ := struck_head hf.1 hq hs
    by_cases hm : .interrupt p ∈ s.cbs en.ev
    · left
      refine ⟨en, q, hq, ?_⟩
      unfold Sim.cbs at hm
      cases hc : (s.events en.ev).callbacks with
      | none => rw [hc] at hm; cases hm
      | some l => rw [hc] at hm; exact ⟨l, rfl, hm⟩
    · right
      have hor := hor.resolve_left hm
      have hr : .resume p ∉ s.cbs en.ev := fun hr => by
        rw [h.poised.urg en (by rw [hq]; exact .head _) hu p hr pt hp] at hn; cases hn
      have hft := fine_taken hf hq
      rcases hcase with ⟨_, hr⟩ | ⟨hst, hr'⟩
      · rw [hr] at hl
        rcases hl with hl | hl | ⟨_, hl⟩ <;> cases hl
        exact ⟨hnow, rfl, hor⟩
      · have hs' : s' = s.called C en q := by
          rcases hr' with hr' | ⟨x, hr'⟩ <;> rw [hr'] at hl <;> rcases hl with hl | hl | ⟨_, hl⟩ <;> cases hl <;> rfl
        subst hs'
        refine ⟨(fine_called C hf hq hst).2.now.trans hnow, ?_⟩
        rcases hf.1.grid en (by rw [hq]; exact .head _) with hg | hg
        · obtain ⟨h1, h2⟩ := unstruck_callbacks C (s.cbs en.ev) ⟨⟨hft.1, hg⟩, hft.2⟩ (pending_taken hf.1 hq) (x := p) (points_lt (s := s) hf.1 hp) hr hm
          exact ⟨h1, h2 hor⟩
        · have hc : s.cbs en.ev = [] := by
            have := hg.resolve_left hst
            simp [Sim.cbs, this]
          unfold Sim.called
          rw [hc]; exact ⟨rfl, hor⟩

/-- An interruption in the schedule is urgent. -/
theorem struck_mem (h : Ready (fun _ => 0) (fun _ => False) s) (hs : ToInterrupt s p) : Struck s p := by
  obtain ⟨en, hen, l, hc, hm⟩ := hs
  have hm : .interrupt p ∈ s.cbs en.ev := by unfold Sim.cbs; rw [hc]; exact hm
  obtain ⟨h1, h2⟩ := h.poised.now en hen p hm
  exact ⟨en, hen, h1, h2.le, hm⟩

theorem mem_struck (hs : Struck s p) : ToInterrupt s p := by
  obtain ⟨en, hen, _, _, hm⟩ := hs
  refine ⟨en, hen, ?_⟩
  unfold Sim.cbs at hm
  cases hc : (s.events en.ev).callbacks with
  | none => rw [hc] at hm; cases hm
  | some l => rw [hc] at hm; exact ⟨l, rfl, hm⟩

theorem struck_setStop {t : ℚ} (hi : Inv s) (hs : Struck s p) : Struck (s.setStop t).1 p := by
  unfold Sim.setStop
  split
  · exact hs
  · obtain ⟨en, hen, hu, ht, hc⟩ := hs
    exact ⟨en, (mem_insertEntry _ _ _).2 (.inr hen), hu, ht, by
      show _ ∈ (s.alloc _).cbs en.ev
      rw [cbs_alloc_old (Nat.ne_of_lt (hi.known en hen))]; exact hc⟩

theorem setStop_points {t : ℚ} : (s.setStop t).1.points = s.points ∧ (s.setStop t).1.now = s.now := by
  unfold Sim.setStop
  split <;> exact ⟨rfl, rfl⟩

theorem compile_struck {C : Cfg} (hs : Struck s p) : Struck (compileAtEnd C s).1 p ∧ (compileAtEnd C s).1.points = s.points ∧ (compileAtEnd C s).1.now = s.now := by
  unfold compileAtEnd
  split
  · split <;> exact ⟨hs, rfl, rfl⟩
  · exact ⟨hs, rfl, rfl⟩

end Verif
