import Verif.Lemmas.Storage
import Verif.Props.Dates
/-! # Memory only grows, and only by what was in a buffer (property C78) -/
namespace Verif.Props
open Verif Verif.Spec

variable {s s' : Sim} {C : Cfg} {w : Mach} {args : Option EnvArgs} {t : ℚ}

/-! ## The property -/

/-- C78: whatever a simulation does from any of its states on, what happens to buffers and memories is a sequence of seven kinds of steps: a chunk is put into a buffer in place of
what was there, a buffer is emptied, the chunk is taken from a buffer, or replaced, or taken and put into memory; a rule calls a method of a buffer; or nothing of the kind. -/
theorem C78_course (h : Reachable C w args t s) (hg : GoesOn C s s') : Course C s.w s'.w := regime_goesOn (atoms_course C).regime h hg

/-- C78: nothing is forgotten, and the times at which a chunk was met are only ever added to, at the end. -/
theorem C78_remembers (h : Reachable C w args t s) (hg : GoesOn C s s') {i : ℕ} {d : CDict (List ℚ)} {c : Chunk} {l : List ℚ} (hd : kept s.w i = some d) (hm : (c, l) ∈ d) :
    ∃ d' l', kept s'.w i = some d' ∧ (c, l ++ l') ∈ d' := by
  obtain ⟨d', l', h1, h2, r, rfl⟩ := course_grows (C78_course h hg) hd hm
  exact ⟨d', r, h1, h2⟩

/-- C78: what is new in a memory, a chunk or a time, comes from a buffer that is emptied into this memory: at some moment in between the buffer held the chunk, and lost it. -/
theorem C78_learns (h : Reachable C w args t s) (hg : GoesOn C s s') {i : ℕ} {d' : CDict (List ℚ)} {c : Chunk} {l : List ℚ} (hd : kept s'.w i = some d') (hm : (c, l) ∈ d')
    (hn : ∀ d, kept s.w i = some d → (c, l) ∉ d) :
    ∃ w1 w2 n e r, Course C s.w w1 ∧ Handled C w1 w2 ∧ Course C w2 s'.w ∧ held w1 n = some (e :: r) ∧ held w2 n = some r ∧ Feeds w1 n i ∧ ceq C.P.H c e = true := by
  rcases course_source (C78_course h hg) hd hm with ⟨d, h1, h2⟩ | h
  · exact absurd h2 (hn d h1)
  · exact h

/-- C78: no buffer ever holds more than one chunk, unless a method that a rule calls puts it there. -/
theorem C78_single (hx : ∀ x b, b.data.length ≤ 1 → (C.exec x b).1.data.length ≤ 1) (hw : ∀ n l, held w n = some l → l.length ≤ 1) (h : Reachable C w args t s) {n : String} {l : List Chunk}
    (hl : held s.w n = some l) : l.length ≤ 1 :=
  course_single hx (regime_reachable (atoms_course C).regime h) hw n l hl

/-! ## Examples -/

theorem goesOn_of_reachable (h : Reachable C w args t s) : GoesOn C (Sim.init w args t) s := by
  induction h with
  | init => exact .refl _
  | @stop s1 s2 q r _ hs ih =>
    have : s2 = (s1.setStop q).1 := by rw [hs]
    exact this ▸ .stop q ih
  | step _ hs ih => exact .step ih (.inl hs)
  | stopped _ hs ih => exact .step ih (.inr (.inl hs))
  | raised _ hs ih => exact .step ih (.inr (.inr ⟨_, hs⟩))
  | @compile s1 s2 r _ hs ih =>
    have : s2 = (compileAtEnd C s1).1 := by rw [hs]
    exact this ▸ .compile ih

/-- The first entry of the memory: the type of the chunk, and the times at which it was met; and how many chunks the buffer holds. -/
def storedIn (s : Sim) : Option (String × List ℚ) × Option ℕ := (((kept s.w 0).bind List.head?).map (fun x => (x.1.typ, x.2)), (held s.w "g").map List.length)

theorem storedIn_spec {k : String} {l : List ℚ} {o : Option ℕ} (h : storedIn s = (some (k, l), o)) : ∃ d c, kept s.w 0 = some d ∧ c.typ = k ∧ (c, l) ∈ d := by
  have h := (Prod.mk.inj h).1
  cases hk : kept s.w 0 with
  | none => rw [hk] at h; cases h
  | some d =>
    rw [hk] at h
    cases d with
    | nil => cases h
    | cons x r =>
      cases h
      exact ⟨_, x.1, rfl, rfl, .head _⟩

/-- At the beginning the goal is in the buffer, and the memory is empty. -/
theorem exDropper_start : storedIn (Sim.init exDropper Option.none 0) = (Option.none, some 1) := by decide +kernel

/-- A rule clears the buffer, and the goal is in memory. -/
theorem exDropper_stores : ∃ s, Reachable exFullC exDropper Option.none 0 s ∧ storedIn s = (some ("goal", [1 / 20]), some 0) := by
  have hb : (Stepped.state? (stepsOf exFullC 9 (Sim.init exDropper Option.none 0))).map storedIn = some (some ("goal", [1 / 20]), some 0) := by decide +kernel
  cases h1 : Stepped.state? (stepsOf exFullC 9 (Sim.init exDropper Option.none 0)) with
  | none => rw [h1] at hb; cases hb
  | some s =>
    rw [h1] at hb
    exact ⟨s, stepsOf_ok .init (state?_some h1), Option.some.inj hb⟩

theorem exDropper_empty {d : CDict (List ℚ)} (hd : kept (Sim.init exDropper Option.none 0).w 0 = some d) : d = [] := by
  have h := (Prod.mk.inj exDropper_start).1
  rw [hd] at h
  cases d with
  | nil => rfl
  | cons x r => cases h

/-- C78_learns, an instance: the chunk in memory was in a buffer. -/
example : ∃ s c, Reachable exFullC exDropper Option.none 0 s ∧ ∃ w1 w2 n e r, Course exFullC exDropper w1 ∧ Handled exFullC w1 w2 ∧ Course exFullC w2 s.w ∧ held w1 n = some (e :: r) ∧
    held w2 n = some r ∧ Feeds w1 n 0 ∧ ceq exFullC.P.H c e = true ∧ c.typ = "goal" := by
  obtain ⟨s, hs, h1⟩ := exDropper_stores
  obtain ⟨d, c, hd, hk, hm⟩ := storedIn_spec h1
  obtain ⟨w1, w2, n, e, r, a1, a2, a3, a4, a5, a6, a7⟩ := C78_learns .init (goesOn_of_reachable hs) hd hm (fun d0 hd0 => by rw [exDropper_empty hd0]; exact List.not_mem_nil)
  exact ⟨s, c, hs, w1, w2, n, e, r, (regime_reachable (atoms_course exFullC).regime .init).trans a1, a2, a3, a4, a5, a6, a7, hk⟩

/-- C78_remembers, an instance: it remains in memory whatever happens next. -/
example : ∃ s, Reachable exFullC exDropper Option.none 0 s ∧ ∀ s', GoesOn exFullC s s' → ∃ d' c l', kept s'.w 0 = some d' ∧ (c, [1 / 20] ++ l') ∈ d' ∧ c.typ = "goal" := by
  obtain ⟨s, hs, h1⟩ := exDropper_stores
  obtain ⟨d, c, hd, hk, hm⟩ := storedIn_spec h1
  refine ⟨s, hs, fun s' hg => ?_⟩
  obtain ⟨d', l', h2, h3⟩ := C78_remembers hs hg hd hm
  exact ⟨d', c, l', h2, h3, hk⟩

/-- C78_single, an instance: the buffer holds a chunk at the beginning, and none after the rule has fired. -/
example : ∃ s l, Reachable exFullC exDropper Option.none 0 s ∧ held s.w "g" = some l ∧ l.length ≤ 1 := by
  obtain ⟨s, hs, h1⟩ := exDropper_stores
  have h2 := (Prod.mk.inj h1).2
  cases hl : held s.w "g" with
  | none => rw [hl] at h2; cases h2
  | some l => exact ⟨s, l, hs, hl, C78_single (fun _ _ h => h) (fun n l h => by
      unfold held Mach.buf exDropper exMach alook at h
      dsimp only at h
      split at h
      · cases h; exact le_rfl
      · cases h) hs hl⟩

end Verif.Props
