import Verif.Props.Simulation
import Verif.Lemmas.SimPreempt
/-! # Property C45: a new request to a busy module -/
namespace Verif.Props
open Verif Verif.Spec

/-- C45 in full, for motor modules: the key that is pressed is always the one of the last command that was reported. -/
def C45_full : Prop :=
  ∀ (C : Cfg) (w : Mach) (args : Option EnvArgs) (t : ℚ) (s : Sim) (pre post : List (ℚ × Verif.Ev)) (x : ℚ × Verif.Ev) (key : String) (c : Chunk),
    Reachable C w args t s → s.trace = pre ++ x :: post → x.2.act = .pressed key → LastCommand x.2.proc pre = some c →
    slotValue c "key" = .ok (.str key)

/-! ## A model for which this fails -/

/-- The rule `?manual> state busy preparation free ==> +manual> press k`. -/
def exOverRule (k : String) : CRule :=
  ⟨⟨.ok [(⟨'?', "manual"⟩, .dict [("state", "busy"), ("preparation", "free")])], .ok [(⟨'+', "manual"⟩, .chunk (exPress k))]⟩, 0, Option.none⟩

/-- A model that changes its mind while it presses a key. -/
def exOver : Mach :=
  { exMach exManualReg [("manual", exBuf .motor)] with
    rules := [("press", exPressRule "a"), ("over", exOverRule "b")], ordered := ["press", "over"] }

/-- The last report is about a key other than the last command. -/
def Sim.wrongKey (s : Sim) : Bool := match s.trace.getLast? with
  | some x => match x.2.act with
    | .pressed k => match LastCommand x.2.proc s.trace.dropLast with
      | some c => match slotValue c "key" with
        | .ok (.str k') => k' != k
        | _ => false
      | _ => false
    | _ => false
  | _ => false

/-- The same after some steps. -/
def Stepped.wrongKey : Stepped → Bool
  | .ok s => Sim.wrongKey s
  | _ => false

/-- A motor command that is past its preparation is not given up: the key of the first command is pressed after the second command was
reported. -/
theorem C45_refuted : ¬ C45_full := by
  intro h
  have hb : Stepped.wrongKey (stepsOf exC 60 (Sim.init exOver Option.none 0)) = true := by decide +kernel
  generalize hst : stepsOf exC 60 (Sim.init exOver Option.none 0) = y at hb
  cases y with
  | ok s =>
    have hb : Sim.wrongKey s = true := hb
    have hr : Reachable exC exOver Option.none 0 s := stepsOf_ok .init hst
    unfold Sim.wrongKey at hb
    split at hb
    · rename_i x hx
      split at hb
      · rename_i k hk
        split at hb
        · rename_i c hc
          split at hb
          · rename_i k' hk'
            have := h exC exOver Option.none 0 s s.trace.dropLast [] x k c hr (List.dropLast_append_getLast? x hx).symm hk hc
            rw [hk'] at this
            cases this
            simp at hb
          · cases hb
        · cases hb
      · cases hb
    · cases hb
  | stopped s => cases hb
  | raised s x => cases hb
  | empty => cases hb

/-! ## What holds -/

/-- A new request to a module that works on one that can be interrupted, and was made by another generator `j`: the process of the module
is interrupted at once. -/
theorem C45_request_partial {s : Sim} {name : String} {i j a e : ℕ} {d : Desc} (ha : alook name s.activate = some a) (hb : s.triggered a = true)
    (hi : alook name s.interruptibles = some j) (hij : j ≠ i) (he : alook name s.extra = some e) (hlive : s.triggered e = false) :
    (notify (.gen name i d) s).2 = .ok () ∧ Struck (notify (.gen name i d) s).1 e ∧ (notify (.gen name i d) s).1.points = s.points := by
  have heq : notify (.gen name i d) s = interruptProcess e { s with interruptibles := aset name i s.interruptibles } := by
    unfold notify
    show SimM.bind (activateOf name) _ s = _
    have h1 : activateOf name s = (s, .ok a) := by unfold activateOf; rw [ha]
    simp only [SimM.bind, h1]
    show (if s.triggered a then _ else _ : SimM Unit) s = _
    rw [hb]
    show (match alook name s.interruptibles with | Option.none => _ | some j => _ : SimM Unit) s = _
    rw [hi]
    simp only [if_neg hij]
    show interruptExtra name { s with interruptibles := aset name i s.interruptibles } = _
    unfold interruptExtra
    show (match alook name s.extra with | some p => _ | Option.none => _ : Sim × Except PyErr Unit) = _
    rw [he]
  rw [heq]
  have hl : ({ s with interruptibles := aset name i s.interruptibles } : Sim).triggered e = false := hlive
  obtain ⟨h1, h2⟩ := struck_interrupt hl
  refine ⟨h1, h2, ?_⟩
  unfold interruptProcess
  split <;> rfl

/-- C45, partially: if the process of a module that waits for the process `p` of a request is interrupted, `p` never does anything again:
whatever happens, it stays where it is until it ends. -/
theorem C45_partial {C : Cfg} {w : Mach} {args : Option EnvArgs} {t : ℚ} {s s' : Sim} {p e : ℕ} {name : String} {ev : Verif.Ev} {k : Mach → Out Mach YV Unit}
    (hr : Reachable C w args t s) (he : s.points e = some (.extraMain name p)) (hp : s.points p = some (.localWait name ev k)) (hi : Struck s e)
    (hl : Later C s s') : s'.points p = some (.localWait name ev k) ∨ s'.points p = Option.none :=
  (doomed_later (fine_reachable hr) ⟨hp, .inr ⟨e, name, he, hi⟩⟩ hl).2.2.elim .inr fun h => .inl h.1

/-- When it ends this changes nothing but the schedule: neither buffers nor memories, and nothing is reported. -/
theorem C45_end_partial {C : Cfg} {w : Mach} {args : Option EnvArgs} {t : ℚ} {s : Sim} {p ev : ℕ} {name : String} {e : Verif.Ev} {k : Mach → Out Mach YV Unit}
    (hr : Reachable C w args t s) (hp : s.points p = some (.localWait name e k)) :
    (callback C ev (.error .interrupt) s (.interrupt p)).w = s.w ∧ (callback C ev (.error .interrupt) s (.interrupt p)).trace = s.trace ∧
    (callback C ev (.error .interrupt) s (.interrupt p)).points p = Option.none := by
  rw [callback_interrupt C (fine_reachable hr).1 hp]
  exact ⟨rfl, rfl, fset_same _ _ _⟩

/-- The interrupted process of the module starts the next request at once and waits for it. -/
theorem C45_next_partial {C : Cfg} {s : Sim} {name : String} {p i a : ℕ} {d : Desc} {rest : List PItem} (hq : takeFor name s.startedList = .ok (some ((i, d), rest)))
    (ha : alook name s.activate = some a) (hb : s.triggered a = true) :
    ∃ s1 new, extraAfterMain C name p (.error .interrupt) s = (s1, .ok (.wait new (.extraMain name new))) ∧
      s1.points new = some (.localNew name (d.run C)) ∧ s.next ≤ new := by
  have key : ∀ s0 : Sim, s0.startedList = s.startedList → s0.activate = s.activate → s0.triggered a = true →
      extraLoop C name s0 = ((process (.localNew name (d.run C)) (s0.setStarted rest)).1, .ok (.wait s0.next (.extraMain name s0.next))) := by
    intro s0 h1 h2 h3
    have h4 : (s0.setStarted rest).activate = s0.activate := by unfold Sim.setStarted; split <;> rfl
    have h5 : (s0.setStarted rest).triggered a = s0.triggered a := by unfold Sim.setStarted; split <;> rfl
    have h6 : (s0.setStarted rest).next = s0.next := by unfold Sim.setStarted; split <;> rfl
    unfold extraLoop
    show (match takeFor name s0.startedList with | .error x => _ | .ok Option.none => _ | .ok (some ((_, d), rest)) => _ : SimM Res) s0 = _
    rw [h1, hq]
    show SimM.bind (activateOf name) _ (s0.setStarted rest) = _
    have h7 : activateOf name (s0.setStarted rest) = (s0.setStarted rest, .ok a) := by unfold activateOf; rw [h4, h2, ha]
    simp only [SimM.bind, h7]
    show (if (s0.setStarted rest).triggered a then _ else _ : SimM Res) (s0.setStarted rest) = _
    rw [h5, h3]
    show ((process (.localNew name (d.run C)) (s0.setStarted rest)).1, (Except.ok (Res.wait (s0.setStarted rest).next (.extraMain name (s0.setStarted rest).next)) : Except PyErr Res)) = _
    rw [h6]
  have hpt : ∀ s0 : Sim, (process (.localNew name (d.run C)) (s0.setStarted rest)).1.points s0.next = some (.localNew name (d.run C)) := by
    intro s0
    have h6 : (s0.setStarted rest).next = s0.next := by unfold Sim.setStarted; split <;> rfl
    rw [process_eq]
    show fset _ (s0.setStarted rest).next _ s0.next = _
    rw [h6, fset_same]
  by_cases ht : s.triggered p = true
  · refine ⟨_, s.next, ?_, hpt s, le_rfl⟩
    rw [← key s rfl rfl hb]
    show (if s.triggered p then _ else _ : SimM Res) s = _
    rw [ht]; rfl
  · have ht : s.triggered p = false := by simpa using ht
    obtain ⟨hok, hst⟩ := struck_interrupt ht
    have heq : interruptProcess p s = ((s.alloc ⟨some (.error .interrupt), true, some [.interrupt p]⟩).schedule s.next true 0, .ok ()) := by
      simp [interruptProcess, ht]
    have hl : (interruptProcess p s).1.startedList = s.startedList := by rw [heq]; rfl
    have hact : (interruptProcess p s).1.activate = s.activate := by rw [heq]; rfl
    have hnext : (interruptProcess p s).1.next = s.next + 1 := by rw [heq]; rfl
    have htr : (interruptProcess p s).1.triggered a = true := by
      rw [heq]
      show ((s.alloc _).events a).value.isSome = true
      by_cases hx : a = s.next
      · subst hx; rw [events_alloc_new]; rfl
      · rw [events_alloc_old hx]; exact hb
    refine ⟨_, _, ?_, hpt (interruptProcess p s).1, by rw [hnext]; omega⟩
    · rw [← key _ hl hact htr]
      show (if s.triggered p then _ else SimM.bind (interruptProcess p) _ : SimM Res) s = _
      rw [ht]
      simp only [Bool.false_eq_true, if_false, SimM.bind]
      rcases hx : interruptProcess p s with ⟨s1, r⟩
      rw [hx] at hok
      cases hok
      rfl

/-! ## Examples -/

/-- The rule `?g> state st ==> +g> …`. -/
def exAskRule (st k : String) : CRule := ⟨⟨.ok [(⟨'?', "g"⟩, .dict [("state", st)])], .ok [(⟨'+', "g"⟩, .chunk (exPress k))]⟩, 0, Option.none⟩

/-- A goal with a delay of 200 ms, which is asked for something else every 50 ms. -/
def exAsking : Mach :=
  { exMach exManualReg [("g", { exBuf .goal with delay := 1 / 5 })] with
    rules := [("first", exAskRule "free" "a"), ("second", exAskRule "busy" "b")], ordered := ["first", "second"] }

/-- Some module is interrupted while it waits. -/
def Sim.struck (s : Sim) : Bool :=
  (List.range s.next).any fun e => match s.points e with
    | some (.extraMain n p) => (match s.points p with | some (.localWait m _ _) => m == n | _ => false) &&
        s.queue.any fun en => en.urgent && decide (en.time ≤ s.now) && (s.cbs en.ev).contains (.interrupt e)
    | _ => false

/-- The same after some steps. -/
def Stepped.struck : Stepped → Bool
  | .ok s => Sim.struck s
  | _ => false

/-- In the simulation of this model there is a state as in `C45_partial`. -/
theorem ex_struck : ∃ s e p name ev k, Reachable exC exAsking Option.none 0 s ∧ s.points e = some (.extraMain name p) ∧
    s.points p = some (.localWait name ev k) ∧ Struck s e := by
  have hb : Stepped.struck (stepsOf exC 24 (Sim.init exAsking Option.none 0)) = true := by decide +kernel
  generalize hst : stepsOf exC 24 (Sim.init exAsking Option.none 0) = y at hb
  cases y with
  | ok s =>
    have hb : Sim.struck s = true := hb
    unfold Sim.struck at hb
    obtain ⟨e, _, he⟩ := List.any_eq_true.1 hb
    split at he
    · rename_i n p hpe
      rw [Bool.and_eq_true] at he
      obtain ⟨h1, h2⟩ := he
      split at h1
      · rename_i m ev k hpp
        obtain ⟨en, hen, hx⟩ := List.any_eq_true.1 h2
        simp only [Bool.and_eq_true, decide_eq_true_eq, List.contains_iff_mem] at hx
        obtain rfl : m = n := by simpa using h1
        exact ⟨s, e, p, m, ev, k, stepsOf_ok .init hst, hpe, hpp, en, hen, hx.1.1, hx.1.2, hx.2⟩
      · cases h1
    · cases he
  | stopped s => cases hb
  | raised s x => cases hb
  | empty => cases hb

/-- The goal works on a request of the generator 0, another request is waiting. -/
noncomputable def exWaiting : Sim :=
  { ((Sim.init exAsking Option.none 0).trigger 6 (.ok .nothing)) with
    interruptibles := [("g", 0)], started := some [.gen "g" 1 (.retrieveorset "g" (.chunk (exPress "b")) BV.init 0)] }

example : Struck (notify (.gen "g" 1 (.retrieveorset "g" (.chunk (exPress "b")) BV.init 0)) exWaiting).1 4 :=
  (C45_request_partial (s := exWaiting) (name := "g") (i := 1) (j := 0) (a := 6) (e := 4) (by decide +kernel) (by decide +kernel) (by decide +kernel) (by decide)
    (by decide +kernel) (by decide +kernel)).2.1

example : ∃ s1 new, extraAfterMain exC "g" 100 (.error .interrupt) exWaiting = (s1, .ok (.wait new (.extraMain "g" new))) ∧
    s1.points new = some (.localNew "g" ((Desc.retrieveorset "g" (.chunk (exPress "b")) BV.init 0).run exC)) ∧ exWaiting.next ≤ new :=
  C45_next_partial (a := 6) (i := 1) (rest := []) (d := .retrieveorset "g" (.chunk (exPress "b")) BV.init 0) rfl (by decide +kernel) (by decide +kernel)

end Verif.Props
