import Verif.Lemmas.Wane3
/-! # Every call of `run` comes to an end -/
namespace Verif
open Verif.Spec Classical

variable {C : Cfg} {B N n m p : ℕ} {s s' : Sim} {L T g : ℚ}

/-! ## The beginning -/

/-- Processes are added. -/
structure Joins (C : Cfg) (s s' : Sim) : Prop where
  sane : Sane C s'
  next : s.next ≤ s'.next
  old : ∀ p < s.next, s'.points p = s.points p
  args : s'.envArgs = s.envArgs
  trace : s'.trace = s.trace
  now : s'.now = s.now

/-- Code that adds processes. -/
def Joining {A : Type} (C : Cfg) (f : SimM A) : Prop := ∀ s, Sane C s → Joins C s (f s).1

theorem joins_refl (hs : Sane C s) : Joins C s s := ⟨hs, le_rfl, fun _ _ => rfl, rfl, rfl, rfl⟩
theorem joins_trans {a b c : Sim} (h1 : Joins C a b) (h2 : Joins C b c) : Joins C a c :=
  ⟨h2.sane, h1.next.trans h2.next, fun p hp => (h2.old p (hp.trans_le h1.next)).trans (h1.old p hp), h2.args.trans h1.args, h2.trace.trans h1.trace, h2.now.trans h1.now⟩

theorem joining_pure {A : Type} {a : A} : Joining C (pure a) := fun _ hs => joins_refl hs

theorem joining_bind {A D : Type} {f : SimM A} {g : A → SimM D} (hf : Joining C f) (hg : ∀ a, Joining C (g a)) : Joining C (f >>= g) := fun s hs => by
  have h1 := hf s hs
  show Joins C s (SimM.bind f g s).1
  unfold SimM.bind
  rcases hr : f s with ⟨s1, x | a⟩
  · rw [hr] at h1; exact h1
  · rw [hr] at h1; exact joins_trans h1 (hg a s1 h1.sane)

theorem joining_process {pt : Pt} (hd : Sound C pt) : Joining C (process pt) := fun s hs => by
  refine ⟨sane_process hd hs, by show s.next ≤ s.next + 2; omega, fun p hp => ?_, rfl, rfl, rfl⟩
  show fset s.points s.next (some pt) p = _
  exact fset_other _ _ (Nat.ne_of_lt hp)

theorem joining_newEvent : Joining C newEvent := fun s hs => ⟨(charges_newEvent (N := 0) s hs).1, Nat.le_succ _, fun _ _ => rfl, rfl, rfl, rfl⟩

theorem joining_initExtra : ∀ l : List String, Joining C (initExtra l)
  | [] => joining_pure
  | n :: r => by
    unfold initExtra
    split
    · exact joining_initExtra r
    · rename_i hn
      refine joining_bind (joining_process (pt := .extraNew n) hn) fun p => joining_bind joining_newEvent fun a => joining_bind ?_ fun _ => joining_initExtra r
      exact fun s hs => ⟨⟨hs.blank, hs.proc, hs.env, hs.ne, hs.free, hs.sound⟩, le_rfl, fun _ _ => rfl, rfl, rfl, rfl⟩

theorem joins_init (w : Mach) (args : Option EnvArgs) (t : ℚ) : Joins C (process .procNew (Sim.blank w args t)).1 (Sim.init w args t) := by
  have h0 : Sane C (Sim.blank w args t) := ⟨fun _ _ => rfl, by show 0 < 2; omega, by show 1 < 2; omega, by show 1 ≠ 0; omega, rfl, fun _ _ h => by cases h⟩
  have hd : Joining C (do initExtra (w.bufs.map Prod.fst); if w.env.isSome then do let _ ← process .envNew; pure () else pure () : SimM Unit) := by
    refine joining_bind (joining_initExtra _) fun _ => ?_
    split
    · exact joining_bind (joining_process (pt := .envNew) trivial) fun _ => joining_pure
    · exact joining_pure
  exact hd _ (sane_process (pt := .procNew) trivial h0)

/-! ## All states -/

/-- The number of stimuli. -/
def ScreensOf (C : Cfg) (N : ℕ) (args : Option EnvArgs) : Prop := ∀ a, args = some a → ∀ st tr ti, prepareEnv C.upper a.stimuli a.triggers a.times = .ok (st, tr, ti) → st.length ≤ N

theorem screens_exists (C : Cfg) (args : Option EnvArgs) : ∃ N, ScreensOf C N args := by
  cases args with
  | none => exact ⟨0, fun _ h => by cases h⟩
  | some a =>
    cases hp : prepareEnv C.upper a.stimuli a.triggers a.times with
    | error x => exact ⟨0, fun _ h st tr ti he => by cases h; rw [hp] at he; cases he⟩
    | ok y => exact ⟨y.1.length, fun _ h st tr ti he => by cases h; rw [hp] at he; cases he; exact le_rfl⟩

theorem whole_stop {q : ℚ} (h : Whole C N s) : Whole C N (s.setStop q).1 := by
  refine ⟨fine_setStop h.fine, ?_, ?_, ?_⟩ <;> unfold Sim.setStop <;> split
  · exact h.sane
  · have h1 : Outlay C N s 0 (s.alloc ⟨some (.ok .nothing), false, some [.stop]⟩) := outlay_alloc h.sane rfl
    exact (outlay_schedule (N := N) h1.1 _ _ _).1
  · exact h.rests
  · exact h.rests
  · exact h.screens
  · exact h.screens

theorem whole_compile (h : Whole C N s) : Whole C N (compileAtEnd C s).1 := by
  refine ⟨fine_compile h.fine, ?_, ?_, ?_⟩ <;> unfold compileAtEnd <;> split
  · have key : ∀ w, Sane C { s with w := w } := fun w => (swap_w (N := N) h.sane w).1
    split <;> exact key _
  · exact h.sane
  · split <;> exact h.rests
  · exact h.rests
  · split <;> exact h.screens
  · exact h.screens

theorem since_stop {q : ℚ} (h : Since L s) : Since L (s.setStop q).1 := by unfold Sim.setStop; split <;> exact h
theorem since_compile (h : Since L s) : Since L (compileAtEnd C s).1 := by
  unfold compileAtEnd
  split
  · split <;> exact h
  · exact h

theorem since_taken {en : Entry} {q : List Entry} (hi : Inv s) (hq : s.queue = en :: q) (h : Since L s) : Since L (s.taken en q) :=
  ⟨h.1.trans (hi.ahead en (by rw [hq]; exact .head _)), h.2⟩

theorem since_notes (hn : Notes s s') (h : Since L s) : Since L s' := by
  obtain ⟨h1, l, h2, h3⟩ := hn
  refine ⟨h1.symm ▸ h.1, fun x hx => ?_⟩
  rw [h2] at hx
  rcases List.mem_append.1 hx with hx | hx
  · exact h.2 x hx
  · rw [h3 x hx]; exact h.1

/-- What holds of a step. -/
theorem whole_step {r : Stepped} (h : Whole C N s) (hL : Since L s) (hr : s.step C = r) :
    match r with
    | .ok s1 | .stopped s1 | .raised s1 _ => Whole C N s1 ∧ Since L s1
    | .empty => True := by
  rcases step_cases hr with ⟨rfl, _⟩ | ⟨en, q, hq, ⟨_, rfl⟩ | ⟨hs, h'⟩⟩
  · trivial
  · exact ⟨whole_taken h hq, since_taken h.fine.1 hq hL⟩
  · obtain ⟨a, b, -⟩ := whole_called (B := 0) h hq hs
    have := since_notes b (since_taken h.fine.1 hq hL)
    rcases h' with rfl | ⟨x, rfl⟩ <;> exact ⟨a, this⟩

theorem whole_reachable {w : Mach} {args : Option EnvArgs} {t : ℚ} (hN : ScreensOf C N args) (h : Reachable C w args t s) : Whole C N s ∧ Since (round4 t) s := by
  induction h with
  | init =>
    have hj := joins_init (C := C) w args t
    have hf : Good C.ruleFiring (Sim.init w args t) := fine_init w args t
    refine ⟨⟨⟨hf.1.1, hf.2⟩, hj.sane, fun hi => ?_, fun a ha => hN a (hj.args.symm.trans ha)⟩, hj.now.ge, fun x hx => ?_⟩
    · have h2 : (Sim.init w args t).points 2 = some .procNew := hj.old 2 (by show 2 < 4; omega)
      rw [h2] at hi; cases hi
    · rw [hj.trace] at hx; cases hx
  | @stop s s' q r _ hs ih =>
    have h1 := whole_stop (q := q) ih.1
    have h2 := since_stop (q := q) ih.2
    rw [hs] at h1 h2; exact ⟨h1, h2⟩
  | step _ hs ih => exact whole_step ih.1 ih.2 hs
  | stopped _ hs ih => exact whole_step ih.1 ih.2 hs
  | raised _ hs ih => exact whole_step ih.1 ih.2 hs
  | compile _ hs ih =>
    have h1 := whole_compile ih.1
    have h2 := since_compile (C := C) ih.2
    rw [hs] at h1 h2; exact ⟨h1, h2⟩

/-! ## The end -/

/-- The end of the call is scheduled. -/
def Until (T : ℚ) (s : Sim) : Prop := ∃ en ∈ s.queue, .stop ∈ s.cbs en.ev ∧ en.time ≤ T

theorem until_called {en : Entry} {q : List Entry} (h : Whole C N s) (hT : Until T s) (hq : s.queue = en :: q) (hstop : .stop ∉ s.cbs en.ev) :
    Until T (s.called C en q) ∧ (s.called C en q).now ≤ T := by
  obtain ⟨-, hst⟩ := fine_called C h.fine hq hstop
  obtain ⟨e, he, h1, h2⟩ := hT
  have hne : e.ev ≠ en.ev := fun h => hstop (h ▸ h1)
  have hs := h.fine.1.sorted
  rw [hq] at hs he
  have hin : e ∈ q := (List.mem_cons.1 he).resolve_left fun h => hne (by rw [h])
  refine ⟨⟨e, hst.queue e hin, (hst.stops _).2 ?_, h2⟩, ?_⟩
  · unfold Sim.cbs Sim.taken
    dsimp only
    rw [fset_other _ _ hne]
    exact h1
  · rw [hst.now]
    exact (upTo_le ((List.pairwise_cons.1 hs).1 e hin)).trans h2

theorem runs_on (hs : Slow C.ruleFiring g) (hB : T - L + g < (B + 1) * g) : ∀ (x : ℕ ×ₗ (ℕ ×ₗ ℕ)) (s : Sim), Whole C N s → Since L s → Until T s →
    toLex (xs B N s, toLex (ys s, fuel s)) = x → ∃ s' r, RunsOn C s s' r := by
  intro x
  induction x using WellFoundedLT.induction with
  | ind x ih =>
    intro s h hL hT hx
    obtain ⟨en0, hen0, -⟩ := id hT
    rcases step_cases (C := C) (s := s) rfl with ⟨-, hq⟩ | ⟨en, q, hq, ⟨-, hr⟩ | ⟨hstop, hr⟩⟩
    · rw [hq] at hen0; cases hen0
    · exact ⟨_, _, .stopped hr⟩
    · rcases hr with hr | ⟨y, hr⟩
      · obtain ⟨h1, h2, h3⟩ := whole_called (B := B) h hq hstop
        have hL1 := since_notes h2 (since_taken h.fine.1 hq hL)
        obtain ⟨hT1, hnow⟩ := until_called h hT hq hstop
        have hcap : sels (s.called C en q) ≤ B := by
          have := (paced_fine hs h1.fine hL1).1
          by_contra hlt
          have hlt : B + 1 ≤ sels (s.called C en q) := not_le.1 hlt
          have hq : ((B : ℚ) + 1) ≤ (sels (s.called C en q) : ℚ) := by exact_mod_cast hlt
          have := mul_le_mul_of_nonneg_right hq hs.1
          have e : (sels (s.called C en q) : ℚ) = ((s.called C en q).trace.countP (fun x => x.2.act.isSel) : ℚ) := rfl
          rw [e] at this
          linarith
        have hlt : toLex (xs B N (s.called C en q), toLex (ys (s.called C en q), fuel (s.called C en q))) < x := by
          rw [← hx, Prod.Lex.toLex_lt_toLex, Prod.Lex.toLex_lt_toLex]
          have := h3 hcap
          unfold Falls at this
          dsimp only
          omega
        obtain ⟨s', r, hrun⟩ := ih _ hlt (s.called C en q) h1 hL1 hT1 rfl
        exact ⟨s', r, .more hr hrun⟩
      · exact ⟨_, _, .raised hr⟩

/-- Every call of `run` comes to an end if a rule fires later than it is selected. -/
theorem run_terminates (hs : Slow C.ruleFiring g) (hg : 0 < g) {w : Mach} {args : Option EnvArgs} {t0 : ℚ} (h : Reachable C w args t0 s) (t : ℚ) : ∃ s' r, RunCall C s t s' r := by
  obtain ⟨N, hN⟩ := screens_exists C args
  obtain ⟨hw, hL⟩ := whole_reachable hN h
  have h1 := whole_stop (q := t) hw
  have h2 := since_stop (q := t) hL
  cases hst : s.setStop t with
  | mk s1 r =>
    cases r with
    | error x => exact ⟨s1, _, .refused hst⟩
    | ok u =>
      cases u
      rw [hst] at h1 h2
      obtain ⟨B, hB⟩ := exists_nat_gt ((t - round4 t0 + g) / g)
      have hB : t - round4 t0 + g < (B + 1) * g := by
        rw [div_lt_iff₀ hg] at hB
        linarith
      have hT : Until t s1 := by
        unfold Sim.setStop at hst
        split at hst
        · cases hst
        · simp only [Prod.mk.injEq, and_true] at hst
          subst hst
          refine ⟨⟨s.now + (t - s.now), true, s.next⟩, ?_, ?_, by show s.now + (t - s.now) ≤ t; linarith⟩
          · exact (mem_insertEntry _ _ _).2 (.inl rfl)
          · show .stop ∈ (s.alloc ⟨some (.ok .nothing), false, some [.stop]⟩).cbs s.next
            rw [cbs_alloc_new]; simp
      obtain ⟨s2, r, hr⟩ := runs_on hs hB _ s1 h1 h2 hT rfl
      cases r with
      | error x => exact ⟨s2, _, .failed hst hr⟩
      | ok u =>
        cases u
        cases hc : compileAtEnd C s2 with
        | mk s3 r3 => exact ⟨s3, r3, .ended hst hr hc⟩

end Verif
