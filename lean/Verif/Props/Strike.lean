import Verif.Props.Preempt
import Verif.Props.Errors
import Verif.Props.Waiting
import Verif.Lemmas.Placid
/-! # Property C63: pre-empting a module stays internal -/
namespace Verif.Props
open Verif Verif.Spec

variable {C : Cfg} {w : Mach} {args : Option EnvArgs} {t : ℚ} {s s' : Sim} {p : ℕ} {n : String}

/-- C63 in full: the exception with which processes interrupt each other is never raised out of the simulation. -/
def C63_full : Prop :=
  ∀ (C : Cfg) (w : Mach) (args : Option EnvArgs) (t : ℚ) (s s' : Sim), Reachable C w args t s → s.step C ≠ .raised s' .interrupt

/-! ## A model for which this fails -/

/-- What the model looks for. -/
def exSought : Chunk := ⟨"_visuallocation", [("value", .vv ⟨.str "x", Option.none, [], []⟩)]⟩

/-- The rule `==> +visual_location> isa _visuallocation value x`. -/
def exLookRule : CRule := ⟨⟨.ok [], .ok [(⟨'+', "visual_location"⟩, .chunk exSought)]⟩, 0, Option.none⟩

/-- A model that looks for something all the time. -/
def exSearcher : Mach :=
  { exMach [("_visuallocation", ["color", "screen_x", "screen_y", "value"]), ("_visual", ["cmd", "color", "screen_pos", "value"])]
      [("visual_location", exBuf .visualLocation)] with
    rules := [("look", exLookRule)], ordered := ["look"], env := some ⟨0, (320, 180), [], [], [], Option.none, Option.none⟩ }

/-- An environment that shows something new after 50 ms, when the first rule fires. -/
def exLookArgs : Option EnvArgs := some ⟨.list [.screen [], .screen []], .single (.many []), .single (1 / 20), 0⟩

/-- The exception of interruptions is raised. -/
def Stepped.struckOut : Stepped → Bool
  | .raised _ .interrupt => true
  | _ => false

/-- The environment calls the module, then the rule finds it called and interrupts it, but it still waits to be called, where
interruptions are not caught (simulation.py:161). -/
theorem ex_searchFails : ¬ ∀ s s' : Sim, Reachable exC exSearcher exLookArgs 0 s → s.step exC ≠ .raised s' .interrupt := by
  intro h
  have hb : ((Stepped.state? (stepsOf exC 27 (Sim.init exSearcher exLookArgs 0))).map fun s => Stepped.struckOut (s.step exC)) = some true := by decide +kernel
  cases h1 : Stepped.state? (stepsOf exC 27 (Sim.init exSearcher exLookArgs 0)) with
  | none => rw [h1] at hb; cases hb
  | some s =>
    rw [h1] at hb
    have hb : Stepped.struckOut (s.step exC) = true := Option.some.inj hb
    unfold Stepped.struckOut at hb
    split at hb
    · rename_i s' hs
      exact h s s' (stepsOf_ok .init (state?_some h1)) hs
    · cases hb

theorem C63_refuted : ¬ C63_full := fun h => ex_searchFails (h exC exSearcher exLookArgs 0)

/-! ## What holds -/

/-- C63, partially: an interruption can make only such a process fail that is the one of a module which has been called, but not begun
to work (or of a module that works under the name "P", which the simulation uses for the rules). -/
theorem C63_partial (hw : (w.bufs.map Prod.fst).Nodup) (h : Reachable C w args t s) (hi : Interrupts s p) (hf : FailsIn C s s' p .interrupt) : (∃ n, CalledUp s p n) ∨ WorksFor s p "P" := by
  obtain ⟨hl, hp, hn, hv⟩ := hf
  rcases (struck_cases C (ready_reachable hw h) (fine_reachable h) (awake_reachable h) hi hp hl).2 with ⟨n, h1, -, -⟩ | ⟨n, h1, rfl | ⟨d, new, -, h2, -⟩⟩ | ⟨-, -, h2⟩
  · exact .inl ⟨n, h1⟩
  · exact .inr h1
  · rw [hn] at h2; cases h2
  · rw [hv] at h2; cases h2

/-- Such a module always fails. -/
theorem C63_idle_partial (hw : (w.bufs.map Prod.fst).Nodup) (h : Reachable C w args t s) (hi : Interrupts s p) (hp : s.points p = some (.extraIdle n)) (hl : Stepped.leads (s.step C) s') :
    FailsIn C s s' p .interrupt := by
  have hp' : s.points p ≠ Option.none := by rw [hp]; exact (fun h => by cases h)
  rcases (struck_cases C (ready_reachable hw h) (fine_reachable h) (awake_reachable h) hi hp' hl).2 with ⟨_, -, h1, h2⟩ | ⟨n', h1, -⟩ | ⟨⟨pt, h1, h2⟩, -, -⟩
  · exact ⟨hl, hp', h1, h2⟩
  · rcases h1 with ⟨pro, h1⟩ | h1 <;> rw [hp] at h1 <;> cases h1
  · rw [hp] at h1; cases h1; cases h2

/-- A module that is interrupted while it works on a request takes the first of the requests that wait for it, in the same step and at the
same time, and works on this one. -/
theorem C63_goesOn_partial (hw : (w.bufs.map Prod.fst).Nodup) (h : Reachable C w args t s) (hi : Interrupts s p) (hn : WorksFor s p n) (hP : n ≠ "P") (hl : Stepped.leads (s.step C) s') :
    s'.now = s.now ∧ ∃ d new, TakesFirst n d s.startedList s'.startedList ∧ s'.points p = some (.extraMain n new) ∧ s'.target p = new ∧
      s'.points new = some (.localNew n (d.run C)) ∧ s.points new = Option.none := by
  have hp' : s.points p ≠ Option.none := by
    rcases hn with ⟨pro, hn⟩ | hn <;> rw [hn] <;> exact (fun h => by cases h)
  obtain ⟨h0, h1 | ⟨n', h1, h2⟩ | ⟨⟨pt, h1, h2⟩, -, -⟩⟩ := struck_cases C (ready_reachable hw h) (fine_reachable h) (awake_reachable h) hi hp' hl
  · obtain ⟨_, ⟨h1, -⟩, -⟩ := h1
    rcases hn with ⟨pro, hn⟩ | hn <;> rw [hn] at h1 <;> cases h1
  · obtain rfl : n' = n := by
      rcases hn with ⟨pro, hn⟩ | hn <;> rcases h1 with ⟨pro', h1⟩ | h1 <;> rw [hn] at h1 <;> cases h1 <;> rfl
    rcases h2 with h2 | h2
    · exact absurd h2 hP
    · exact ⟨h0, h2⟩
  · rcases hn with ⟨pro, hn⟩ | hn <;> rw [hn] at h1 <;> cases h1 <;> cases h2

/-- A process that carries out a request or waits for the environment ends without exception when it is interrupted. -/
theorem C63_helper_partial (hw : (w.bufs.map Prod.fst).Nodup) (h : Reachable C w args t s) (hi : Interrupts s p) (hs : Spec.Serves s p) (hl : Stepped.leads (s.step C) s') :
    s'.now = s.now ∧ s'.points p = Option.none ∧ (s'.events p).value = some (.ok .nothing) := by
  obtain ⟨pt, hp, hh, hm⟩ : ∃ pt, s.points p = some pt ∧ pt.helper = true ∧ True := by
    rcases hs with ⟨_, _, h⟩ | ⟨_, _, _, h⟩ | ⟨_, h⟩ | ⟨_, h⟩ <;> exact ⟨_, h, rfl, trivial⟩
  have hp' : s.points p ≠ Option.none := by rw [hp]; exact (fun h => by cases h)
  obtain ⟨h0, ⟨_, ⟨h1, -⟩, -⟩ | ⟨n', h1, -⟩ | ⟨-, h2⟩⟩ := struck_cases C (ready_reachable hw h) (fine_reachable h) (awake_reachable h) hi hp' hl
  · rw [hp] at h1; cases h1; cases hh
  · rcases h1 with ⟨pro, h1⟩ | h1 <;> rw [hp] at h1 <;> cases h1 <;> cases hh
  · exact ⟨h0, h2⟩

/-! ## Where the exception comes from -/

/-- C63, partially: unless methods or rules raise the exception themselves, no process fails with it except for those of modules that
have been called, but not begun to work, and these only when they are interrupted. -/
theorem C63_only_partial (hw : (w.bufs.map Prod.fst).Nodup) (hn : NoneOfItsOwn .interrupt C w) (h : Reachable C w args t s) (hf : FailsIn C s s' p .interrupt) : Interrupts s p ∧ ∃ n, CalledUp s p n :=
  fails_struck hw hn h hf

/-- Hence it is raised out of `step` only after such a module was interrupted. -/
theorem C63_raised_partial (hw : (w.bufs.map Prod.fst).Nodup) (hn : NoneOfItsOwn .interrupt C w) (h : Reachable C w args t s) (hr : s.step C = .raised s' .interrupt) : ∃ p, WasStruck C w args t s p :=
  raised_struck hw hn h hr

/-- And likewise out of `run`. -/
theorem C63_run_partial (hw : (w.bufs.map Prod.fst).Nodup) (hn : NoneOfItsOwn .interrupt C w) (h : Reachable C w args t s) {q : ℚ} (hr : RunCall C s q s' (.error .interrupt)) : ∃ p, WasStruck C w args t s' p := by
  have key : ∀ {s s' : Sim} {r : Except PyErr Unit}, RunsOn C s s' r → Reachable C w args t s → r = .error .interrupt → ∃ p, WasStruck C w args t s' p := fun hro => by
    induction hro with
    | stopped _ => exact fun _ h => by cases h
    | @raised s s' x hs =>
      intro h0 hx
      cases hx
      obtain ⟨p, hp⟩ := raised_struck hw hn h0 hs
      exact ⟨p, wasStruck_goesOn hp ((GoesOn.refl _).step (.inr (.inr ⟨_, hs⟩)))⟩
    | more hs _ ih => exact fun h0 hx => ih (h0.step hs) hx
  cases hr with
  | refused h1 =>
    unfold Sim.setStop at h1
    split at h1 <;> cases h1
  | failed h1 h2 => exact key h2 (h.stop h1) rfl
  | @ended s1 s2 s3 r h1 h2 h3 =>
    exfalso
    have hr2 := reachable_runsOn (h.stop h1) h2
    have hb := (blameless_compileIn (C := C) (muffled_sound (accounted_reachable hw (civil_of hn).1 (civil_of hn).2 hr2).1)).out
    unfold compileAtEnd at h3
    split at h3
    · rcases hci : compileIn C s2.w with ⟨w', x | o⟩ <;> rw [hci] at h3 hb <;> cases h3
      exact hb rfl
    · cases h3

/-! ## All runs -/

theorem works_not_new {pt : Pt} (hn : WorksFor s p n) (hp : s.points p = some pt) : pt.isNew = false := by
  rcases hn with ⟨pro, hn⟩ | hn <;> rw [hn] at hp <;> cases hp <;> rfl

/-- An interruption of a process that has been started is carried out before the clock goes on: until then nothing happens to the process,
and something is left to do. -/
theorem C63_soon_partial (hw : (w.bufs.map Prod.fst).Nodup) (h : Reachable C w args t s) {pt : Pt} (hp : s.points p = some pt) (hn : pt.isNew = false) (hi : ToInterrupt s p) (hg : GoesOn C s s') :
    (s'.now = s.now ∧ s'.points p = s.points p ∧ ToInterrupt s' p ∧ s'.step C ≠ .empty) ∨
    ∃ s1 s2, GoesOn C s s1 ∧ s1.now = s.now ∧ s1.points p = s.points p ∧ Interrupts s1 p ∧ Stepped.leads (s1.step C) s2 ∧ GoesOn C s2 s' := by
  have hne : ∀ s0 : Sim, ToInterrupt s0 p → s0.step C ≠ .empty := fun s0 ⟨en, hen, _⟩ he => by
    rcases step_cases he with ⟨_, hq⟩ | ⟨_, _, _, ⟨_, hr⟩ | ⟨_, hr | ⟨_, hr⟩⟩⟩
    · rw [hq] at hen; cases hen
    · cases hr
    · cases hr
    · cases hr
  induction hg with
  | refl => exact .inl ⟨rfl, rfl, hi, hne _ hi⟩
  | @step s1 s2 hg hl ih =>
    rcases ih with ⟨h1, h2, h3, _⟩ | ⟨a, b, h1, h2, h3, h4, h5, h6⟩
    · have hr := reachable_goesOn h hg
      have hre := ready_reachable hw hr
      rcases struck_alone C hre (fine_reachable hr) (h2.trans hp) hn (struck_mem hre h3) hl with h4 | ⟨h4, h5, h6⟩
      · exact .inr ⟨s1, s2, hg, h1, h2, h4, hl, .refl _⟩
      · exact .inl ⟨h4.trans h1, h5.trans h2, mem_struck h6, hne _ (mem_struck h6)⟩
    · exact .inr ⟨a, b, h1, h2, h3, h4, h5, h6.step hl⟩
  | @stop s1 q hg ih =>
    rcases ih with ⟨h1, h2, h3, _⟩ | ⟨a, b, h1, h2, h3, h4, h5, h6⟩
    · have hr := reachable_goesOn h hg
      have h4 := mem_struck (struck_setStop (t := q) (fine_reachable hr).1 (struck_mem (ready_reachable hw hr) h3))
      exact .inl ⟨setStop_points.2.trans h1, (congrFun setStop_points.1 p).trans h2, h4, hne _ h4⟩
    · exact .inr ⟨a, b, h1, h2, h3, h4, h5, h6.stop q⟩
  | @compile s1 hg ih =>
    rcases ih with ⟨h1, h2, h3, _⟩ | ⟨a, b, h1, h2, h3, h4, h5, h6⟩
    · have hr := reachable_goesOn h hg
      obtain ⟨h4, h5, h6⟩ := compile_struck (C := C) (struck_mem (ready_reachable hw hr) h3)
      exact .inl ⟨h6.trans h1, (congrFun h5 p).trans h2, mem_struck h4, hne _ (mem_struck h4)⟩
    · exact .inr ⟨a, b, h1, h2, h3, h4, h5, h6.compile⟩

/-- C45, partially, for all runs: when a module that works on a request is to be interrupted, then by the time the clock has gone on (or
nothing is left to do) it has given up this request for the first one that was waiting. -/
theorem C45_soon_partial (hw : (w.bufs.map Prod.fst).Nodup) (h : Reachable C w args t s) (hn : WorksFor s p n) (hP : n ≠ "P") (hi : ToInterrupt s p) (hg : GoesOn C s s') (hl : s'.now ≠ s.now ∨ s'.step C = .empty) :
    ∃ s1 s2 d new, GoesOn C s s1 ∧ Stepped.leads (s1.step C) s2 ∧ GoesOn C s2 s' ∧ s1.now = s.now ∧ s2.now = s.now ∧ s1.points p = s.points p ∧
      TakesFirst n d s1.startedList s2.startedList ∧ s2.points p = some (.extraMain n new) ∧ s2.target p = new ∧ s2.points new = some (.localNew n (d.run C)) ∧ s1.points new = Option.none := by
  obtain ⟨pt, hp⟩ : ∃ pt, s.points p = some pt := by rcases hn with ⟨pro, hn⟩ | hn <;> exact ⟨_, hn⟩
  rcases C63_soon_partial hw h hp (works_not_new hn hp) hi hg with ⟨h1, -, -, h2⟩ | ⟨s1, s2, h1, h2, h3, h4, h5, h6⟩
  · exact (hl.elim (fun hl => hl h1) h2).elim
  · have hn1 : WorksFor s1 p n := by unfold WorksFor; rw [h3]; exact hn
    obtain ⟨h7, d, new, h8, h9, h10, h11, h12⟩ := C63_goesOn_partial hw (reachable_goesOn h h1) h4 hn1 hP h5
    exact ⟨s1, s2, d, new, h1, h5, h6, h2, h7.trans h2, h3, h8, h9, h10, h11, h12⟩

/-! ## Examples -/

/-- The process that the next step interrupts, with the number of the kind of place where it is. -/
def Sim.struckNext (s : Sim) : ℕ × ℕ := match s.queue with
  | [] => (0, 0)
  | en :: _ => match (s.events en.ev).callbacks with
    | some [.interrupt p] => (p, match s.points p with | some (.extraIdle "visual_location") => 1 | some (.extraMain "g" _) => 2 | some (.localWait _ _ _) => 3 | _ => 0)
    | _ => (0, 0)

theorem struckNext_some {k : ℕ} (h : Sim.struckNext s = (p, k + 1)) : Interrupts s p ∧
    (match s.points p with | some (.extraIdle "visual_location") => 1 | some (.extraMain "g" _) => 2 | some (.localWait _ _ _) => 3 | _ => 0) = k + 1 := by
  unfold Sim.struckNext at h
  split at h
  · cases h
  · rename_i en q hq
    split at h
    · rename_i p' hc
      obtain ⟨rfl, h2⟩ := Prod.mk.inj h
      exact ⟨⟨en, q, hq, _, hc, List.mem_singleton.2 rfl⟩, h2⟩
    · cases h

/-- The model above is interrupted although it does not work yet. -/
theorem ex_struckIdle : ∃ s, Reachable exC exSearcher exLookArgs 0 s ∧ Interrupts s 4 ∧ s.points 4 = some (.extraIdle "visual_location") ∧ ∃ s', Stepped.leads (s.step exC) s' := by
  have hb : ((Stepped.state? (stepsOf exC 23 (Sim.init exSearcher exLookArgs 0))).map fun s => (Sim.struckNext s, (Stepped.state? (s.step exC)).isSome)) = some ((4, 1), true) := by decide +kernel
  cases h1 : Stepped.state? (stepsOf exC 23 (Sim.init exSearcher exLookArgs 0)) with
  | none => rw [h1] at hb; cases hb
  | some s =>
    rw [h1] at hb
    obtain ⟨h2, h3⟩ := Prod.mk.inj (Option.some.inj hb)
    obtain ⟨s', h3⟩ := Option.isSome_iff_exists.1 h3
    obtain ⟨h4, h5⟩ := struckNext_some h2
    refine ⟨s, stepsOf_ok .init (state?_some h1), h4, ?_, s', .inl (state?_some h3)⟩
    split at h5
    · assumption
    all_goals cases h5

example : ∃ s s' : Sim, Reachable exC exSearcher exLookArgs 0 s ∧ Interrupts s 4 ∧ FailsIn exC s s' 4 .interrupt ∧ ((∃ n, CalledUp s 4 n) ∨ WorksFor s 4 "P") := by
  obtain ⟨s, h1, h2, h3, s', h4⟩ := ex_struckIdle
  have hf := C63_idle_partial (by decide) h1 h2 h3 h4
  exact ⟨s, s', h1, h2, hf, C63_partial (by decide) h1 h2 hf⟩

/-- Nothing else in this model raises the exception. -/
theorem exSearcher_none : NoneOfItsOwn .interrupt exC exSearcher := by
  refine ⟨fun c b h => ?_, fun k p q d h => ?_, fun n r hr h => ?_, fun n r hr h => ?_⟩
  · cases h
  · cases h
  · have hr : (if "look" = n then some exLookRule else Option.none) = some r := hr
    split at hr <;> cases hr
    cases h
  · have hr : (if "look" = n then some exLookRule else Option.none) = some r := hr
    split at hr <;> cases hr
    cases h

example : ∃ s s' : Sim, Reachable exC exSearcher exLookArgs 0 s ∧ FailsIn exC s s' 4 .interrupt ∧ ∃ n, CalledUp s 4 n := by
  obtain ⟨s, h1, h2, h3, s', h4⟩ := ex_struckIdle
  have hf := C63_idle_partial (by decide) h1 h2 h3 h4
  exact ⟨s, s', h1, hf, (C63_only_partial (by decide) exSearcher_none h1 hf).2⟩

/-- The step that raises it. -/
theorem ex_struckOut : ∃ s s' : Sim, Reachable exC exSearcher exLookArgs 0 s ∧ s.step exC = .raised s' .interrupt := by
  by_contra hno
  refine ex_searchFails fun s s' h hs => hno ⟨s, s', h, hs⟩

example : ∃ s s' : Sim, s.step exC = .raised s' .interrupt ∧ ∃ p, WasStruck exC exSearcher exLookArgs 0 s p := by
  obtain ⟨s, s', h1, h2⟩ := ex_struckOut
  exact ⟨s, s', h2, C63_raised_partial (by decide) exSearcher_none h1 h2⟩

/-- A call of `run` that raises it. -/
theorem ex_struckRun : ∃ s', RunCall exC (Sim.init exSearcher exLookArgs 0) 1 s' (.error .interrupt) := by
  have hb : (match (Sim.init exSearcher exLookArgs 0).setStop 1 with
    | (s1, .ok ()) => Stepped.struckOut (stepsOf exC 28 s1)
    | _ => false) = true := by decide +kernel
  split at hb
  · rename_i s1 h1
    unfold Stepped.struckOut at hb
    split at hb
    · rename_i s' hs
      exact ⟨s', .failed h1 (stepsOf_runsOn hs)⟩
    · cases hb
  · cases hb

example : ∃ s' : Sim, RunCall exC (Sim.init exSearcher exLookArgs 0) 1 s' (.error .interrupt) ∧ ∃ p, WasStruck exC exSearcher exLookArgs 0 s' p := by
  obtain ⟨s', h⟩ := ex_struckRun
  exact ⟨s', h, C63_run_partial (by decide) exSearcher_none .init h⟩

/-- A module is interrupted while it works. -/
theorem ex_struckWork : ∃ s, Reachable exC exAsking Option.none 0 s ∧ Interrupts s 4 ∧ WorksFor s 4 "g" ∧ ∃ s', Stepped.leads (s.step exC) s' := by
  have hb : ((Stepped.state? (stepsOf exC 24 (Sim.init exAsking Option.none 0))).map fun s => (Sim.struckNext s, (Stepped.state? (s.step exC)).isSome)) = some ((4, 2), true) := by decide +kernel
  cases h1 : Stepped.state? (stepsOf exC 24 (Sim.init exAsking Option.none 0)) with
  | none => rw [h1] at hb; cases hb
  | some s =>
    rw [h1] at hb
    obtain ⟨h2, h3⟩ := Prod.mk.inj (Option.some.inj hb)
    obtain ⟨s', h3⟩ := Option.isSome_iff_exists.1 h3
    obtain ⟨h4, h5⟩ := struckNext_some h2
    refine ⟨s, stepsOf_ok .init (state?_some h1), h4, ?_, s', .inl (state?_some h3)⟩
    split at h5
    · cases h5
    · rename_i pro hp; exact .inl ⟨pro, hp⟩
    all_goals cases h5

example : ∃ s s' : Sim, Reachable exC exAsking Option.none 0 s ∧ Interrupts s 4 ∧ s'.now = s.now ∧ ∃ d, TakesFirst "g" d s.startedList s'.startedList := by
  obtain ⟨s, h1, h2, h3, s', h4⟩ := ex_struckWork
  obtain ⟨h5, d, _, h6, _⟩ := C63_goesOn_partial (by decide) h1 h2 h3 (by decide) h4
  exact ⟨s, s', h1, h2, h5, d, h6⟩

/-- In the next step the process of its request is interrupted. -/
theorem ex_struckHelper : ∃ s, Reachable exC exAsking Option.none 0 s ∧ Interrupts s 15 ∧ Spec.Serves s 15 ∧ ∃ s', Stepped.leads (s.step exC) s' := by
  have hb : ((Stepped.state? (stepsOf exC 25 (Sim.init exAsking Option.none 0))).map fun s => (Sim.struckNext s, (Stepped.state? (s.step exC)).isSome)) = some ((15, 3), true) := by decide +kernel
  cases h1 : Stepped.state? (stepsOf exC 25 (Sim.init exAsking Option.none 0)) with
  | none => rw [h1] at hb; cases hb
  | some s =>
    rw [h1] at hb
    obtain ⟨h2, h3⟩ := Prod.mk.inj (Option.some.inj hb)
    obtain ⟨s', h3⟩ := Option.isSome_iff_exists.1 h3
    obtain ⟨h4, h5⟩ := struckNext_some h2
    refine ⟨s, stepsOf_ok .init (state?_some h1), h4, ?_, s', .inl (state?_some h3)⟩
    split at h5
    · cases h5
    · cases h5
    · rename_i n e k hp; exact .inr (.inl ⟨n, e, k, hp⟩)
    · cases h5

example : ∃ s s' : Sim, Reachable exC exAsking Option.none 0 s ∧ Interrupts s 15 ∧ s'.points 15 = Option.none ∧ (s'.events 15).value = some (.ok .nothing) := by
  obtain ⟨s, h1, h2, h3, s', h4⟩ := ex_struckHelper
  exact ⟨s, s', h1, h2, (C63_helper_partial (by decide) h1 h2 h3 h4).2⟩

theorem stepsOf_goesOn {n : ℕ} {s1 s2 : Sim} (hg : GoesOn C s s1) (he : stepsOf C n s1 = .ok s2) : GoesOn C s s2 := by
  induction n generalizing s1 with
  | zero => cases he; exact hg
  | succ n ih =>
    rw [stepsOf_succ] at he
    cases hs : s1.step C with
    | ok s3 => rw [hs] at he; exact ih (hg.step (.inl hs)) he
    | stopped s3 => rw [hs] at he; cases he
    | raised s3 y => rw [hs] at he; cases he
    | empty => rw [hs] at he; cases he

/-- After twenty further steps the clock has gone on. -/
theorem ex_struckSoon : ∃ s s', Reachable exC exAsking Option.none 0 s ∧ WorksFor s 4 "g" ∧ ToInterrupt s 4 ∧ GoesOn exC s s' ∧ s'.now ≠ s.now := by
  have hb : ((Stepped.state? (stepsOf exC 24 (Sim.init exAsking Option.none 0))).bind fun s => (Stepped.state? (stepsOf exC 20 s)).map fun s' => (Sim.struckNext s, decide (s'.now ≠ s.now))) = some ((4, 2), true) := by decide +kernel
  cases h1 : Stepped.state? (stepsOf exC 24 (Sim.init exAsking Option.none 0)) with
  | none => rw [h1] at hb; cases hb
  | some s =>
    rw [h1] at hb
    replace hb : (Stepped.state? (stepsOf exC 20 s)).map _ = _ := hb
    cases h2 : Stepped.state? (stepsOf exC 20 s) with
    | none => rw [h2] at hb; cases hb
    | some s' =>
      rw [h2] at hb
      obtain ⟨h3, h4⟩ := Prod.mk.inj (Option.some.inj hb)
      obtain ⟨⟨en, q, hq, l, hc, hm⟩, h5⟩ := struckNext_some h3
      refine ⟨s, s', stepsOf_ok .init (state?_some h1), ?_, ⟨en, by rw [hq]; exact .head _, l, hc, hm⟩, stepsOf_goesOn (.refl _) (state?_some h2), of_decide_eq_true h4⟩
      split at h5
      · cases h5
      · rename_i pro hp; exact .inl ⟨pro, hp⟩
      all_goals cases h5

example : ∃ s s' : Sim, Reachable exC exAsking Option.none 0 s ∧ GoesOn exC s s' ∧ ∃ s1 s2 d, GoesOn exC s s1 ∧ GoesOn exC s2 s' ∧ TakesFirst "g" d s1.startedList s2.startedList := by
  obtain ⟨s, s', h1, h2, h3, h4, h5⟩ := ex_struckSoon
  obtain ⟨s1, s2, d, _, h6, _, h7, _, _, _, h8, _⟩ := C45_soon_partial (by decide) h1 h2 (by decide) h3 h4 (.inl h5)
  exact ⟨s, s', h1, h4, s1, s2, d, h6, h7, h8⟩

end Verif.Props
