import Verif.Lemmas.SimReach
/-! # Calls of `run` -/
namespace Verif
open Verif.Spec

variable {rf : ℚ} {s s' : Sim} {e : ℕ} {q : ℚ}

/-- Event `e` will stop the run at time `q`. -/
structure Halts (s : Sim) (e : ℕ) (q : ℚ) : Prop where
  stop : .stop ∈ s.cbs e
  there : ∃ en ∈ s.queue, en.ev = e
  timed : ∀ en ∈ s.queue, en.ev = e → en.time = q
  val : (s.events e).value ≠ Option.none

/-- Nothing else will stop it. -/
def OnlyStop (s : Sim) (e : ℕ) : Prop := ∀ ev, .stop ∈ s.cbs ev → ev = e

/-- Nothing will stop it. -/
def NoStop (s : Sim) : Prop := ∀ ev, .stop ∉ s.cbs ev

theorem cbs_taken (s : Sim) (en : Entry) (l : List Entry) (x : ℕ) : (s.taken en l).cbs x = if x = en.ev then [] else s.cbs x := by
  unfold Sim.cbs
  by_cases h : x = en.ev
  · simp [Sim.taken, fset, h]
  · simp [Sim.taken, fset, h]

theorem head_time {en : Entry} {l : List Entry} (h : Inv s) (hq : s.queue = en :: l) : s.now ≤ en.time ∧ ∀ x ∈ s.queue, en.time ≤ x.time := by
  have hs := h.sorted
  have ha := h.ahead
  rw [hq] at hs ha ⊢
  refine ⟨ha en (.head _), fun x hx => ?_⟩
  rcases List.mem_cons.1 hx with rfl | hx
  · exact le_rfl
  · exact upTo_le ((List.pairwise_cons.1 hs).1 x hx)

theorem halts_called (C : Cfg) {en : Entry} {l : List Entry} (h : Fine C.ruleFiring s) (hh : Halts s e q) (hq : s.queue = en :: l) (hs : .stop ∉ s.cbs en.ev) :
    Halts (s.called C en l) e q ∧ s.now ≤ (s.called C en l).now ∧ (s.called C en l).now ≤ q ∧ (OnlyStop s e → OnlyStop (s.called C en l) e) := by
  obtain ⟨_, hst⟩ := fine_called C h hq hs
  obtain ⟨ht1, ht2⟩ := head_time h.1 hq
  have hne : e ≠ en.ev := by rintro rfl; exact hs hh.stop
  obtain ⟨x, hx, hxe⟩ := hh.there
  have hxl : x ∈ l := by
    rw [hq] at hx
    rcases List.mem_cons.1 hx with rfl | hx
    · exact absurd hxe.symm hne
    · exact hx
  have hnow : (s.called C en l).now = en.time := hst.now
  have hval : ((s.taken en l).events e).value ≠ Option.none := by rw [(thin_taken s en l).value]; exact hh.val
  refine ⟨⟨(hst.stops e).2 (by rw [cbs_taken, if_neg hne]; exact hh.stop), ⟨x, hst.queue x hxl, hxe⟩, fun y hy hye => ?_, ?_⟩, by rw [hnow]; exact ht1, ?_, fun ho ev hev => ?_⟩
  · rcases hst.newq y hy with hy | hy
    · exact hh.timed y (by rw [hq]; exact .tail _ hy) hye
    · rw [hye] at hy; exact absurd hy hval
  · obtain ⟨v, hv⟩ := Option.ne_none_iff_exists'.1 hval
    rw [hst.value _ _ hv]; simp
  · rw [hnow, ← hh.timed x hx hxe]; exact ht2 x hx
  · have := (hst.stops ev).1 hev
    rw [cbs_taken] at this
    split at this
    · simp at this
    · exact ho ev this

theorem halts_taken {en : Entry} {l : List Entry} (h : Fine rf s) (hh : Halts s e q) (hq : s.queue = en :: l) (hs : .stop ∈ s.cbs en.ev) :
    s.now ≤ en.time ∧ en.time ≤ q ∧ (OnlyStop s e → en.time = q ∧ NoStop (s.taken en l)) := by
  obtain ⟨ht1, ht2⟩ := head_time h.1 hq
  obtain ⟨x, hx, hxe⟩ := hh.there
  refine ⟨ht1, by rw [← hh.timed x hx hxe]; exact ht2 x hx, fun ho => ?_⟩
  have he := ho _ hs
  refine ⟨hh.timed en (by rw [hq]; exact .head _) he, fun ev hev => ?_⟩
  rw [cbs_taken] at hev
  split at hev
  · simp at hev
  · rename_i hne; exact hne ((ho ev hev).trans he.symm)

/-- Running on until the stop, or until an exception. -/
theorem halts_runsOn {C : Cfg} {r : Except PyErr Unit} (h : Fine C.ruleFiring s) (hh : Halts s e q) (hr : RunsOn C s s' r) :
    Fine C.ruleFiring s' ∧ s.now ≤ s'.now ∧ s'.now ≤ q ∧ (r = .ok () → OnlyStop s e → s'.now = q ∧ NoStop s') := by
  induction hr with
  | @stopped s s' hs =>
    rcases step_cases hs with ⟨hx, _⟩ | ⟨en, l, hq, ⟨hst, hx⟩ | ⟨_, hx | ⟨x, hx⟩⟩⟩ <;> cases hx
    obtain ⟨a, b, d⟩ := halts_taken h hh hq hst
    exact ⟨fine_taken h hq, a, b, fun _ ho => d ho⟩
  | @raised s s' x hs =>
    rcases step_cases hs with ⟨hx, _⟩ | ⟨en, l, hq, ⟨hst, hx⟩ | ⟨hst, hx | ⟨x, hx⟩⟩⟩ <;> cases hx
    obtain ⟨_, b, d, _⟩ := halts_called C h hh hq hst
    exact ⟨(fine_called C h hq hst).1, b, d, by simp⟩
  | @more s s1 s' r hs _ ih =>
    rcases step_cases hs with ⟨hx, _⟩ | ⟨en, l, hq, ⟨hst, hx⟩ | ⟨hst, hx | ⟨x, hx⟩⟩⟩ <;> cases hx
    obtain ⟨a, b, d, f⟩ := halts_called C h hh hq hst
    obtain ⟨i, j, k, m⟩ := ih (fine_called C h hq hst).1 a
    exact ⟨i, b.trans j, k, fun hr ho => m hr (f ho)⟩

theorem halts_setStop (h : Fine rf s) (hq : s.now < q) : (s.setStop q).2 = .ok () ∧ (s.setStop q).1.now = s.now ∧ Halts (s.setStop q).1 s.next q ∧
    (NoStop s → OnlyStop (s.setStop q).1 s.next) := by
  unfold Sim.setStop
  rw [if_neg (not_le.2 hq)]
  have hc : ∀ ev, ((s.alloc ⟨some (.ok .nothing), false, some [.stop]⟩).schedule s.next true (q - s.now)).cbs ev = if ev = s.next then [.stop] else s.cbs ev := fun ev => by
    show (s.alloc _).cbs ev = _
    split
    · rename_i he; subst he; rw [cbs_alloc_new]; rfl
    · rename_i he; rw [cbs_alloc_old he]
  refine ⟨rfl, rfl, ⟨by rw [hc, if_pos rfl]; simp, ⟨_, (mem_insertEntry _ _ _).2 (.inl rfl), rfl⟩, fun en hen he => ?_, ?_⟩, fun hn ev hev => ?_⟩
  · rcases (mem_insertEntry _ _ _).1 hen with rfl | hen
    · show s.now + (q - s.now) = q; ring
    · exact absurd (h.1.known en hen) (by rw [he]; exact lt_irrefl _)
  · show ((s.alloc _).events s.next).value ≠ _
    rw [events_alloc_new]; simp
  · rw [hc] at hev
    split at hev
    · rename_i he; exact he
    · exact absurd hev (hn ev)

theorem compile_keeps {C : Cfg} {r : Except PyErr Unit} (h : compileAtEnd C s = (s', r)) : s'.now = s.now ∧ (NoStop s → NoStop s') := by
  unfold compileAtEnd at h
  split at h
  · split at h <;> (cases h; exact ⟨rfl, fun hn => hn⟩)
  · cases h; exact ⟨rfl, fun hn => hn⟩

theorem run_call {C : Cfg} {r : Except PyErr Unit} (h : Fine C.ruleFiring s) (hr : RunCall C s q s' r) :
    (q ≤ s.now ∧ s' = s ∧ r = .error .value) ∨
    (s.now < q ∧ Fine C.ruleFiring s' ∧ s.now ≤ s'.now ∧ s'.now ≤ q ∧ (r = .ok () → NoStop s → s'.now = q ∧ NoStop s')) := by
  by_cases hq : q ≤ s.now
  · left
    have hs : s.setStop q = (s, .error .value) := by unfold Sim.setStop; rw [if_pos hq]
    cases hr with
    | refused h1 => rw [hs] at h1; cases h1; exact ⟨hq, rfl, rfl⟩
    | failed h1 _ => rw [hs] at h1; cases h1
    | ended h1 _ _ => rw [hs] at h1; cases h1
  · right
    have hq := not_le.1 hq
    obtain ⟨a, b, c, d⟩ := halts_setStop h hq
    have hf := fine_setStop (q := q) h
    refine ⟨hq, ?_⟩
    cases hr with
    | refused h1 => rw [h1] at a; cases a
    | failed h1 h2 =>
      rw [h1] at a b c d hf
      obtain ⟨f, g, i, _⟩ := halts_runsOn hf c h2
      exact ⟨f, b ▸ g, i, by simp⟩
    | @ended s1 s2 s3 _ h1 h2 h3 =>
      rw [h1] at a b c d hf
      obtain ⟨f, g, i, j⟩ := halts_runsOn hf c h2
      obtain ⟨k, l⟩ := compile_keeps h3
      have hfc := fine_compile (C := C) f
      rw [h3] at hfc
      rw [k]
      exact ⟨hfc, b ▸ g, i, fun _ hn => ⟨(j rfl (d hn)).1, l (j rfl (d hn)).2⟩⟩

/-- At the beginning nothing will stop the run. -/
theorem noStop_init (w : Mach) (args : Option EnvArgs) (t : ℚ) : NoStop (Sim.init w args t) ∧ (Sim.init w args t).now = round4 t := by
  have h0 := inv_blank w args t
  have hd : Doing (do let _ ← process .procNew; initExtra (w.bufs.map Prod.fst); if w.env.isSome then do let _ ← process .envNew; pure () else pure () : SimM Unit)
      (Sim.blank w args t) (fun _ _ => True) := by
    refine doing_bind (doing_process h0 (fun _ _ => trivial) rfl rfl) fun _ s1 h1 _ _ => ?_
    refine doing_bind (doing_initExtra _ h1) fun _ s1 h1 _ _ => ?_
    split
    · exact doing_bind (doing_process h1 (fun _ _ => trivial) rfl trivial) fun _ s2 h2 _ _ => doing_pure h2 trivial
    · exact doing_pure h1 trivial
  refine ⟨fun ev hev => ?_, hd.2.1.1.now⟩
  have := (hd.2.1.1.stops ev).1 hev
  simp only [Sim.cbs, Sim.blank] at this
  split at this <;> simp at this

end Verif
