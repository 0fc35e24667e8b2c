import Verif.Lemmas.PunctualRun
import Verif.Props.Deeds
import Verif.Props.Errors
import Verif.Props.Requests
/-! # Nothing is remembered before it happens (property C77) -/
namespace Verif.Props
open Verif Verif.Spec

variable {s : Sim} {C : Cfg} {w : Mach} {args : Option EnvArgs} {t D : ℚ}

/-! ## Times for encoding -/

theorem round4_add85 (t : ℚ) : round4 (t + 85 / 1000) = round4 t + 85 / 1000 := by
  obtain ⟨k, h1, h2, h3⟩ := round4_isRounded t
  refine (isRounded_unique ⟨k + 850, ?_, ?_, fun h => ?_⟩).symm
  · rw [h1]; push_cast; ring
  · rw [add_sub_add_right_eq_sub]; exact h2
  · rw [add_sub_add_right_eq_sub] at h
    exact Even.add (h3 h) (by decide)

theorem encodes_plain (he : C.emmaOn = false) : Encodes C (85 / 1000) := by
  intro c bv w w' r h
  have hr : r.2.1 = ((85 : ℚ) / 1000, 0, (85 : ℚ) / 1000) := by
    unfold shiftIn at h
    split at h
    · cases h
    · split at h
      · cases h
      · split at h
        · cases h
        · cases h
        · split at h
          · cases h
          · rw [he] at h; cases h; rfl
  rw [hr]
  refine ⟨by norm_num, fun t x hx => ?_⟩
  rw [← round4_add85]
  exact round4_mono (by linarith)

theorem encodes_emma (he : C.emmaOn = true) (hD : ShiftsWithin C D) : Encodes C (D + 1 / 10000) := by
  intro c bv w w' r h
  have hr : r.2.1.1 ≤ D ∧ 0 ≤ r.2.1.2.1 ∧ 0 ≤ r.2.1.2.2 := by
    unfold shiftIn at h
    split at h
    · cases h
    · split at h
      · cases h
      · split at h
        · cases h
        · cases h
        · split at h
          · cases h
          · dsimp only at h
            rw [if_pos he] at h
            have h := (Prod.mk.inj h).2
            revert h
            generalize hx : C.emma _ _ _ _ = x
            intro h
            rcases x with x | x
            · cases h
            · cases h; exact hD _ _ _ _ _ hx
  refine ⟨by linarith [hr.2.1, hr.2.2], fun t x hx => ?_⟩
  have h1 := abs_le.1 (round4_close (t + x))
  have h2 := abs_le.1 (round4_close t)
  linarith [hr.1]

theorem dated_start {L : ℚ} (hp : w.procs = []) (hr : ∀ q, Remembered w q → q ≤ round4 t) (hL : 0 ≤ L) (hs : ∀ n b, (n, b) ∈ w.bufs → b.cls = .visual → Encodes C L) : Dated C L (round4 t) w :=
  ⟨fun q hq => by linarith [hr q hq], (fun n i d hm => by rw [hp] at hm; cases hm), fun n hn => by
    obtain ⟨⟨n', b⟩, hb, he⟩ := List.mem_map.1 hn
    exact hs n' b hb (congrArg Prod.snd he)⟩

/-! ## The property -/

/-- C77 in full: in every state of a simulation, no chunk has a trace that is later than the clock. -/
def C77_full : Prop := ∀ (C : Cfg) (w : Mach) (args : Option EnvArgs) (t : ℚ), w.procs = [] → (∀ q, Remembered w q → q ≤ round4 t) →
  ∀ s : Sim, Reachable C w args t s → ∀ q, Remembered s.w q → q ≤ s.now

/-- C77, what holds in full: in models without a visual buffer no chunk has a trace that is later than the clock. Missing: models with a visual buffer, whose old content is
put into memory when the encoding of the new content begins, with the time at which it will end (see `C77_refuted`, `C77_visual` and `C77_emma`). -/
theorem C77_partial (hv : ∀ n b, (n, b) ∈ w.bufs → b.cls ≠ .visual) (hp : w.procs = []) (hr : ∀ q, Remembered w q → q ≤ round4 t) (h : Reachable C w args t s) {q : ℚ} (hq : Remembered s.w q) :
    q ≤ s.now := by
  have := (timely_reachable (L := 0) le_rfl (dated_start hp hr le_rfl fun n b hb hc => absurd hc (hv n b hb)) h).dated.traces q hq
  linarith

/-- C77, vision without EMMA: traces are never more than 85 milliseconds ahead of the clock. -/
theorem C77_visual (he : C.emmaOn = false) (hp : w.procs = []) (hr : ∀ q, Remembered w q → q ≤ round4 t) (h : Reachable C w args t s) {q : ℚ} (hq : Remembered s.w q) :
    q ≤ s.now + 85 / 1000 :=
  (timely_reachable (by norm_num) (dated_start hp hr (by norm_num) fun _ _ _ _ => encodes_plain he) h).dated.traces q hq

/-- C77, vision with EMMA: traces are never further ahead of the clock than the longest time for encoding, up to rounding. -/
theorem C77_emma (he : C.emmaOn = true) (h0 : 0 ≤ D) (hD : ShiftsWithin C D) (hp : w.procs = []) (hr : ∀ q, Remembered w q → q ≤ round4 t) (h : Reachable C w args t s) {q : ℚ}
    (hq : Remembered s.w q) : q ≤ s.now + D + 1 / 10000 := by
  have := (timely_reachable (L := D + 1 / 10000) (by linarith) (dated_start hp hr (by linarith) fun _ _ _ _ => encodes_emma he hD) h).dated.traces q hq
  linarith

/-! ## Examples -/

/-- The place of an object. -/
def exThere : Chunk := ⟨"_visuallocation", [("color", .empty), ("screen_x", .vv (exLit "7")), ("screen_y", .vv (exLit "0")), ("value", .empty)]⟩

/-- What was seen before. -/
def exSeenBefore : Chunk := ⟨"_visual", [("cmd", .empty), ("color", .empty), ("screen_pos", .empty), ("value", .vv (exLit "a"))]⟩

/-- A model that has seen a and looks at b. -/
def exStarer : Mach :=
  { exMach exShiftReg [("where", { exBuf .visualLocation with data := [exThere], dm := some 0 }), ("what", { exBuf .visual with attend := false, data := [exSeenBefore], dm := some 0 })] with
    mems := [⟨[], [], [], []⟩], rules := [("attend", exAttendRule)], ordered := ["attend"], env := some ⟨0, (0, 0), [], [], [], Option.none, Option.none⟩ }

/-- There is a trace as far ahead of the clock as this. -/
def traceAhead (d : ℚ) (s : Sim) : Bool := s.w.mems.any (fun m => m.data.any (fun x => x.2.any (fun q => decide (q = s.now + d))))

theorem traceAhead_spec {d : ℚ} (h : traceAhead d s = true) : Remembered s.w (s.now + d) := by
  obtain ⟨m, hm, h⟩ := List.any_eq_true.1 h
  obtain ⟨⟨c, l⟩, hx, h⟩ := List.any_eq_true.1 h
  obtain ⟨q, hq, h⟩ := List.any_eq_true.1 h
  exact ⟨m, hm, c, l, hx, of_decide_eq_true h ▸ hq⟩

theorem exStarer_ahead : ∃ s, Reachable exWatchC exStarer exWatched 0 s ∧ Remembered s.w (s.now + 85 / 1000) := by
  have hb : (Stepped.state? (stepsOf exWatchC 34 (Sim.init exStarer exWatched 0))).map (traceAhead (85 / 1000)) = some true := by decide +kernel
  cases h1 : Stepped.state? (stepsOf exWatchC 34 (Sim.init exStarer exWatched 0)) with
  | none => rw [h1] at hb; cases hb
  | some s =>
    rw [h1] at hb
    exact ⟨s, stepsOf_ok .init (state?_some h1), traceAhead_spec (Option.some.inj hb)⟩

/-- C77 does not hold in full: while b is being encoded, a is in memory with a trace 85 milliseconds ahead of the clock. -/
theorem C77_refuted : ¬ C77_full := by
  intro h
  obtain ⟨s, hs, hq⟩ := exStarer_ahead
  have := h exWatchC exStarer exWatched 0 rfl (fun q hq => by
    obtain ⟨m, hm, c, l, hl, _⟩ := hq
    cases List.mem_singleton.1 hm
    cases hl) s hs _ hq
  linarith

/-- C77_visual, an instance: the bound is reached. -/
example : ∃ s q, Reachable exWatchC exStarer exWatched 0 s ∧ Remembered s.w q ∧ q = s.now + 85 / 1000 ∧ q ≤ s.now + 85 / 1000 := by
  obtain ⟨s, hs, hq⟩ := exStarer_ahead
  refine ⟨s, _, hs, hq, rfl, C77_visual rfl rfl (fun q hq => ?_) hs hq⟩
  obtain ⟨m, hm, c, l, hl, _⟩ := hq
  cases List.mem_singleton.1 hm
  cases hl

/-- The same with EMMA: encoding takes a tenth of a second, the preparation 135 milliseconds and the movement 70. -/
noncomputable def exEmmaC : Cfg := { exWatchC with emmaOn := true, emma := fun _ _ site _ => .ok ((1 / 10, 135 / 1000, 70 / 1000), site) }

/-- C77_emma, an instance: a tenth of a second ahead. -/
example : ∃ s q, Reachable exEmmaC exStarer exWatched 0 s ∧ Remembered s.w q ∧ q = s.now + 1 / 10 ∧ q ≤ s.now + 1 / 10 + 1 / 10000 := by
  have hb : (Stepped.state? (stepsOf exEmmaC 34 (Sim.init exStarer exWatched 0))).map (traceAhead (1 / 10)) = some true := by decide +kernel
  cases h1 : Stepped.state? (stepsOf exEmmaC 34 (Sim.init exStarer exWatched 0)) with
  | none => rw [h1] at hb; cases hb
  | some s =>
    rw [h1] at hb
    have hs : Reachable exEmmaC exStarer exWatched 0 s := stepsOf_ok .init (state?_some h1)
    refine ⟨s, _, hs, traceAhead_spec (Option.some.inj hb), rfl, C77_emma rfl (by norm_num) (fun k f site d r hr => ?_) rfl (fun q hq => ?_) hs (traceAhead_spec (Option.some.inj hb))⟩
    · cases hr; norm_num
    · obtain ⟨m, hm, c, l, hl, _⟩ := hq
      cases List.mem_singleton.1 hm
      cases hl

/-- A model that forgets its goal. -/
def exDropper : Mach :=
  { exMach [("goal", ["a"])] [("g", { exBuf .goal with data := [⟨"goal", [("a", .vv (exLit "x"))]⟩], dm := some 0 })] with
    mems := [⟨[], [], [], []⟩], rules := [("drop", exGlanceRule)], ordered := ["drop"] }

/-- C77_partial, an instance: what was in the buffer is in memory, and the trace shows the time at which the rule fired. -/
example : ∃ s q, Reachable exFullC exDropper Option.none 0 s ∧ Remembered s.w q ∧ q = s.now ∧ 0 < q ∧ q ≤ s.now := by
  have hb : (Stepped.state? (stepsOf exFullC 9 (Sim.init exDropper Option.none 0))).map (fun s => traceAhead 0 s && decide (0 < s.now)) = some true := by decide +kernel
  cases h1 : Stepped.state? (stepsOf exFullC 9 (Sim.init exDropper Option.none 0)) with
  | none => rw [h1] at hb; cases hb
  | some s =>
    rw [h1] at hb
    obtain ⟨hb1, hb2⟩ := Bool.and_eq_true_iff.1 (Option.some.inj hb)
    have hq := traceAhead_spec hb1
    rw [add_zero] at hq
    have hs : Reachable exFullC exDropper Option.none 0 s := stepsOf_ok .init (state?_some h1)
    refine ⟨s, s.now, hs, hq, rfl, of_decide_eq_true hb2, C77_partial (fun n b hm hc => ?_) rfl (fun q hq => ?_) hs hq⟩
    · cases List.mem_singleton.1 hm; cases hc
    · obtain ⟨m, hm, c, l, hl, _⟩ := hq
      cases List.mem_singleton.1 hm
      cases hl

end Verif.Props
