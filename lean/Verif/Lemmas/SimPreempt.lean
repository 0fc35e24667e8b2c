import Verif.Lemmas.SimReach
/-! # Interrupted processes of modules -/
namespace Verif
open Verif.Spec

variable {rf : ℚ} {s s' : Sim} {p : ℕ}

/-- An interruption of the process is to happen now, before anything that is not urgent. -/
def Struck (s : Sim) (p : ℕ) : Prop := ∃ en ∈ s.queue, en.urgent = true ∧ en.time ≤ s.now ∧ .interrupt p ∈ s.cbs en.ev

/-- The process `p` waits at `pt`, and it is interrupted, or the process of the module that waits for it is. -/
def Doomed (s : Sim) (p : ℕ) (pt : Pt) : Prop :=
  s.points p = some pt ∧ (Struck s p ∨ ∃ e name, s.points e = some (.extraMain name p) ∧ Struck s e)

theorem struck_stays (hi : Inv s) (h : Struck s p) (hs : Stays s s') : Struck s' p := by
  obtain ⟨en, hen, hu, ht, hc⟩ := h
  exact ⟨en, hs.queue en hen, hu, by rw [hs.now]; exact ht, (hs.intr en.ev p (hi.known en hen)).2 hc⟩

theorem struck_mild (hi : Inv s) (h : Struck s p) (hs : Mild s s') : Struck s' p := by
  obtain ⟨en, hen, hu, ht, hc⟩ := h
  exact ⟨en, hs.queue en hen, hu, by rw [hs.now]; exact ht, (mem_of_filter (hs.cbs en.ev (hi.known en hen)) rfl).2 hc⟩

/-- `interrupt()` strikes. -/
theorem struck_interrupt (h : s.triggered p = false) : (interruptProcess p s).2 = .ok () ∧ Struck (interruptProcess p s).1 p := by
  have he : interruptProcess p s = ((s.alloc ⟨some (.error .interrupt), true, some [.interrupt p]⟩).schedule s.next true 0, .ok ()) := by
    simp [interruptProcess, h]
  rw [he]
  refine ⟨rfl, ⟨s.now + 0, true, s.next⟩, (mem_insertEntry _ _ _).2 (.inl rfl), rfl, (add_zero s.now).le, ?_⟩
  show _ ∈ (s.alloc _).cbs s.next
  rw [cbs_alloc_new]; simp

/-! ## Callbacks -/

/-- An interruption ends a process that waits for the time of its event. -/
theorem callback_interrupt (C : Cfg) {ev : ℕ} {name : String} {e : Ev} {k : Mach → Out Mach YV Unit} (hi : Inv s) (hp : s.points p = some (.localWait name e k)) :
    callback C ev (.error .interrupt) s (.interrupt p) = (s.dropCallback (s.target p) (.resume p)).ends p (.ok .nothing) := by
  have hv := hi.live p (by rw [hp]; rfl)
  have ht : ¬ s.triggered p = true := by simp [Sim.triggered, hv]
  simp only [callback, if_neg ht]
  rw [resume_eq C (s := s.dropCallback (s.target p) (.resume p)) (pt := .localWait name e k) hp]
  rfl

theorem struck_waits {q ev : ℕ} {pt : Pt} (h : Struck s p) : Struck (s.waits q ev pt) p := by
  obtain ⟨en, hen, hu, ht, hc⟩ := h
  exact ⟨en, hen, hu, ht, mem_addCallback_old (s := ({ s with points := fset s.points q (some pt), target := fset s.target q ev } : Sim)) hc⟩

theorem struck_ends {q : ℕ} {v : Except PyErr SVal} (h : Struck s p) : Struck (s.ends q v) p := by
  obtain ⟨en, hen, hu, ht, hc⟩ := h
  refine ⟨en, (mem_insertEntry _ _ _).2 (.inr hen), hu, ht, ?_⟩
  show _ ∈ (Sim.valued ({ s with points := fset s.points q Option.none } : Sim) q v).cbs en.ev
  rw [cbs_valued]; exact hc

/-- An interruption of the process of a module strikes the process that works for it. -/
theorem callback_extra (C : Cfg) {ev e : ℕ} {name : String} (h : Good C.ruleFiring s) (he : s.points e = some (.extraMain name p)) (hp : (s.points p).isSome) :
    Struck (callback C ev (.error .interrupt) s (.interrupt e)) p := by
  have hi := h.1.1
  have ht : ¬ s.triggered e = true := by simp [Sim.triggered, hi.live e (by rw [he]; rfl)]
  simp only [callback, if_neg ht]
  rw [resume_eq C (s := s.dropCallback (s.target e) (.resume e)) (pt := .extraMain name p) he]
  have hg := good_drop (ev := s.target e) (cb := .resume e) (by simp) h
  have hp : ((s.dropCallback (s.target e) (.resume e)).points p).isSome := hp
  generalize s.dropCallback (s.target e) (.resume e) = s0 at hg hp
  have ht0 : s0.triggered p = false := by simp [Sim.triggered, hg.1.1.live p hp]
  obtain ⟨hok, hst⟩ := struck_interrupt ht0
  obtain ⟨h1, h2, -⟩ := doing_interrupt (p := p) hg.1
  obtain ⟨h3, h4, -⟩ := doing_extraLoop C (name := name) (p := e) h1
  have heq : code C (.extraMain name p) (.error .interrupt) s0 = extraLoop C name (interruptProcess p s0).1 := by
    show (if s0.triggered p then extraLoop C name else SimM.bind (interruptProcess p) fun _ => extraLoop C name) s0 = _
    rw [ht0]
    simp only [Bool.false_eq_true, if_false, SimM.bind]
    rcases hx : interruptProcess p s0 with ⟨s1, r⟩
    rw [hx] at hok
    cases hok
    rfl
  rw [heq]
  have hs2 := struck_mild h1.1 hst h4.1
  generalize extraLoop C name (interruptProcess p s0).1 = y at hs2
  rcases y with ⟨s2, y | ⟨ev, pt⟩ | v⟩
  · exact struck_ends hs2
  · exact struck_waits hs2
  · exact struck_ends hs2

/-- The same while callbacks are called, `l` are those still to come. -/
def Dooming (s : Sim) (p : ℕ) (pt : Pt) (l : List Callback) : Prop :=
  p < s.next ∧ (s.points p = Option.none ∨ (s.points p = some pt ∧ .resume p ∉ l ∧
    ((Struck s p ∨ .interrupt p ∈ l) ∨ ∃ e name, s.points e = some (.extraMain name p) ∧ .resume e ∉ l ∧ (Struck s e ∨ .interrupt e ∈ l))))

theorem dooming_callback (C : Cfg) {ev : ℕ} {v : Except PyErr SVal} {cb : Callback} {l : List Callback} {name : String} {e : Ev} {k : Mach → Out Mach YV Unit}
    (h : Good C.ruleFiring s) (hpe : Pending ev v (cb :: l) s) (hd : Dooming s p (.localWait name e k) (cb :: l)) :
    Dooming (callback C ev v s cb) p (.localWait name e k) l := by
  have hi := h.1.1
  obtain ⟨hlt, hd⟩ := hd
  obtain ⟨h1, -, q, ho, hq⟩ := good_callback C h hpe
  have hst := stays_others ho (hq.imp (fun h => h.ge) fun h => h.2)
  refine ⟨hlt.trans_le hst.next, ?_⟩
  rcases hd with hd | ⟨hp, hr, hd⟩
  · exact .inl (hst.gone p hlt hd)
  by_cases hcb : cb = .interrupt p
  · subst hcb
    left
    obtain ⟨rfl, -⟩ := hpe.intr p (.head _)
    rw [callback_interrupt C hi hp]
    show fset _ p Option.none p = _
    rw [fset_same]
  right
  have hqp : ∀ x, x < s.next → cb ≠ .interrupt x → cb ≠ .resume x → x ≠ q := by
    rintro x hx h1 h2 rfl
    rcases hq with hq | ⟨hq | hq, -⟩
    · omega
    · exact h2 hq
    · exact h1 hq
  have hrp : cb ≠ .resume p := fun hc => hr (by rw [hc]; exact .head _)
  refine ⟨(ho.points p hlt (hqp p hlt hcb hrp)).trans hp, fun hm => hr (.tail _ hm), ?_⟩
  rcases hd with hd | ⟨x, nm, hx, hrx, hd⟩
  · left
    rcases hd with hd | hd
    · exact .inl (struck_stays hi hd hst)
    · exact .inr ((List.mem_cons.1 hd).resolve_left fun hc => hcb hc.symm)
  · by_cases hcx : cb = .interrupt x
    · subst hcx
      obtain ⟨rfl, -⟩ := hpe.intr x (.head _)
      exact .inl (.inl (callback_extra C h hx (by rw [hp]; rfl)))
    · have hxr : cb ≠ .resume x := fun hc => hrx (by rw [hc]; exact .head _)
      have hxl := points_lt hi hx
      refine .inr ⟨x, nm, (ho.points x hxl (hqp x hxl hcx hxr)).trans hx, fun hm => hrx (.tail _ hm), ?_⟩
      rcases hd with hd | hd
      · exact .inl (struck_stays hi hd hst)
      · exact .inr ((List.mem_cons.1 hd).resolve_left fun hc => hcx hc.symm)

theorem dooming_callbacks (C : Cfg) {ev : ℕ} {v : Except PyErr SVal} {name : String} {e : Ev} {k : Mach → Out Mach YV Unit} : ∀ (l : List Callback) {s : Sim},
    Good C.ruleFiring s → Pending ev v l s → Dooming s p (.localWait name e k) l → Dooming (l.foldl (callback C ev v) s) p (.localWait name e k) []
  | [], _, _, _, h => h
  | cb :: l, s, h, hp, hd => by
    obtain ⟨a, b, -⟩ := good_callback C h hp
    exact dooming_callbacks C l a b (dooming_callback C h hp hd)

/-! ## Steps -/

/-- The next event is urgent and happens now. -/
theorem struck_head {h : Entry} {q : List Entry} (hi : Inv s) (hq : s.queue = h :: q) (hs : Struck s p) :
    h.urgent = true ∧ h.time = s.now ∧ (.interrupt p ∈ s.cbs h.ev ∨ Struck (s.taken h q) p) := by
  obtain ⟨en, hen, hu, ht, hc⟩ := hs
  have hh := hi.ahead h (by rw [hq]; exact .head _)
  rw [hq] at hen
  rcases List.mem_cons.1 hen with rfl | hen
  · exact ⟨hu, le_antisymm ht hh, .inl hc⟩
  · have hso := hi.sorted
    rw [hq] at hso
    have hup := (List.pairwise_cons.1 hso).1 en hen
    have htime : h.time = s.now := le_antisymm ((upTo_le hup).trans ht) hh
    refine ⟨?_, htime, ?_⟩
    · rcases hup with hup | ⟨-, hup⟩
      · exact absurd (hup.trans_le ht) (not_lt.2 hh)
      · rcases hup with hup | hup
        · exact hup
        · rw [hu] at hup; cases hup
    · by_cases he : en.ev = h.ev
      · exact .inl (by rw [← he]; exact hc)
      · refine .inr ⟨en, hen, hu, by show en.time ≤ h.time; rw [htime]; exact ht, ?_⟩
        have : (s.taken h q).cbs en.ev = s.cbs en.ev := by simp [Sim.cbs, Sim.taken, fset, he]
        rw [this]; exact hc

/-- No process that waits for its time is resumed as long as something urgent happens now. -/
theorem urgent_resume {h : Entry} {q : List Entry} {pt : Pt} {t : ℚ} (hi : Inv s) (hq : s.queue = h :: q) (hu : h.urgent = true) (hp : s.points p = some pt)
    (ht : pt.due = some t) : .resume p ∉ s.cbs h.ev := by
  intro hm
  have htg := (hi.res h.ev p hm).1
  have := ptOk_due (hi.wait p pt hp) ht
  rw [htg] at this
  have := (this.2 h (by rw [hq]; exact .head _) rfl).2
  rw [hu] at this; cases this

theorem extra_resume {h : Entry} {q : List Entry} {e : ℕ} {name : String} (hi : Inv s) (hq : s.queue = h :: q) (hp : (s.points p).isSome)
    (he : s.points e = some (.extraMain name p)) : .resume e ∉ s.cbs h.ev := by
  intro hm
  have htg := (hi.res h.ev e hm).1
  have hw : s.target e = p := hi.wait e _ he
  have := hi.queued h (by rw [hq]; exact .head _)
  rw [← htg, hw, hi.live p hp] at this
  cases this

theorem dooming_taken {h : Entry} {q : List Entry} {name : String} {e : Ev} {k : Mach → Out Mach YV Unit} (hi : Inv s) (hq : s.queue = h :: q)
    (hd : Doomed s p (.localWait name e k)) : Dooming (s.taken h q) p (.localWait name e k) (s.cbs h.ev) := by
  obtain ⟨hp, hd⟩ := hd
  refine ⟨points_lt (s := s) hi hp, .inr ⟨hp, ?_⟩⟩
  rcases hd with hd | ⟨x, nm, hx, hd⟩
  · obtain ⟨hu, -, hor⟩ := struck_head hi hq hd
    exact ⟨urgent_resume hi hq hu hp rfl, .inl hor.symm⟩
  · obtain ⟨hu, -, hor⟩ := struck_head hi hq hd
    exact ⟨urgent_resume hi hq hu hp rfl, .inr ⟨x, nm, hx, extra_resume hi hq (by rw [hp]; rfl) hx, hor.symm⟩⟩

theorem doomed_of {pt : Pt} (h : Dooming s p pt []) : s.points p = Option.none ∨ Doomed s p pt := by
  rcases h.2 with h | ⟨hp, -, h⟩
  · exact .inl h
  · refine .inr ⟨hp, ?_⟩
    rcases h with h | ⟨e, nm, he, -, h⟩
    · exact .inl (h.resolve_right (by simp))
    · exact .inr ⟨e, nm, he, h.resolve_right (by simp)⟩

theorem doomed_called (C : Cfg) {h : Entry} {q : List Entry} {name : String} {e : Ev} {k : Mach → Out Mach YV Unit} (hf : Fine C.ruleFiring s) (hq : s.queue = h :: q)
    (hstop : .stop ∉ s.cbs h.ev) (hd : Doomed s p (.localWait name e k)) :
    (s.called C h q).points p = Option.none ∨ Doomed (s.called C h q) p (.localWait name e k) := by
  have hd := dooming_taken hf.1 hq hd
  have hft := fine_taken hf hq
  apply doomed_of
  unfold Sim.called
  rcases hf.1.grid h (by rw [hq]; exact .head _) with hg | hg
  · exact dooming_callbacks C _ ⟨⟨hft.1, hg⟩, hft.2⟩ (pending_taken hf.1 hq) hd
  · have : s.cbs h.ev = [] := by
      have := hg.resolve_left hstop
      simp [Sim.cbs, this]
    rw [this] at hd ⊢; exact hd

theorem doomed_taken {h : Entry} {q : List Entry} {pt : Pt} (hi : Inv s) (hq : s.queue = h :: q)
    (hstop : .stop ∈ s.cbs h.ev) (hd : Doomed s p pt) : Doomed (s.taken h q) p pt := by
  obtain ⟨hp, hd⟩ := hd
  refine ⟨hp, hd.imp (fun hs => ?_) fun ⟨x, nm, hx, hs⟩ => ⟨x, nm, hx, ?_⟩⟩ <;>
    exact (struck_head hi hq hs).2.2.resolve_left fun hm => (hi.intr _ _ hm).2.2 hstop

theorem doomed_later {C : Cfg} {name : String} {e : Ev} {k : Mach → Out Mach YV Unit} (hf : Fine C.ruleFiring s) (hd : Doomed s p (.localWait name e k)) (hl : Later C s s') :
    Fine C.ruleFiring s' ∧ p < s'.next ∧ (s'.points p = Option.none ∨ Doomed s' p (.localWait name e k)) := by
  induction hl with
  | refl => exact ⟨hf, points_lt hf.1 hd.1, .inr hd⟩
  | @stop s1 s2 t r _ hs ih =>
    obtain ⟨ihf, ihlt, ih⟩ := ih
    have hfs := fine_setStop (q := t) ihf
    rw [hs] at hfs
    unfold Sim.setStop at hs
    split at hs
    · cases hs; exact ⟨ihf, ihlt, ih⟩
    · cases hs
      refine ⟨hfs, Nat.lt_succ_of_lt ihlt, ih.imp id fun ih => ⟨ih.1, ?_⟩⟩
      have hst : ∀ x, Struck s1 x → Struck ((s1.alloc ⟨some (.ok .nothing), false, some [.stop]⟩).schedule s1.next true (t - s1.now)) x := fun x ⟨en, hen, hu, ht, hc⟩ =>
        ⟨en, (mem_insertEntry _ _ _).2 (.inr hen), hu, ht, by
          show _ ∈ (s1.alloc _).cbs en.ev
          rw [cbs_alloc_old (Nat.ne_of_lt (ihf.1.known en hen))]; exact hc⟩
      exact ih.2.imp (hst p) fun ⟨x, nm, hx, hs⟩ => ⟨x, nm, hx, hst x hs⟩
  | compile _ hs ih =>
    obtain ⟨ihf, ihlt, ih⟩ := ih
    have hfs := fine_compile (C := C) ihf
    rw [hs] at hfs
    unfold compileAtEnd at hs
    split at hs
    · split at hs <;> cases hs <;> exact ⟨hfs, ihlt, ih⟩
    · cases hs; exact ⟨ihf, ihlt, ih⟩
  | @step s1 s2 _ hs ih =>
    obtain ⟨ihf, ihlt, ih⟩ := ih
    refine ⟨((fine_step ihf).1 _ hs).1, ?_⟩
    rcases step_cases hs with ⟨h, _⟩ | ⟨en, q, hq, ⟨_, h⟩ | ⟨hst, h | ⟨x, h⟩⟩⟩ <;> cases h
    have hsta := (fine_called C ihf hq hst).2
    refine ⟨lt_of_lt_of_le ihlt hsta.next, ?_⟩
    rcases ih with ih | ih
    · exact .inl (hsta.gone p ihlt ih)
    · exact doomed_called C ihf hq hst ih
  | @raised s1 s2 x _ hs ih =>
    obtain ⟨ihf, ihlt, ih⟩ := ih
    refine ⟨(fine_step ihf).2.2 _ _ hs, ?_⟩
    rcases step_cases hs with ⟨h, _⟩ | ⟨en, q, hq, ⟨_, h⟩ | ⟨hst, h | ⟨x, h⟩⟩⟩ <;> cases h
    have hsta := (fine_called C ihf hq hst).2
    refine ⟨lt_of_lt_of_le ihlt hsta.next, ?_⟩
    rcases ih with ih | ih
    · exact .inl (hsta.gone p ihlt ih)
    · exact doomed_called C ihf hq hst ih
  | @stopped s1 s2 _ hs ih =>
    obtain ⟨ihf, ihlt, ih⟩ := ih
    refine ⟨(fine_step ihf).2.1 _ hs, ?_⟩
    rcases step_cases hs with ⟨h, _⟩ | ⟨en, q, hq, ⟨hst, h⟩ | ⟨hst, h | ⟨x, h⟩⟩⟩ <;> cases h
    exact ⟨ihlt, ih.imp id (doomed_taken ihf.1 hq hst)⟩

end Verif
