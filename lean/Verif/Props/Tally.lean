import Verif.Lemmas.Solvent
import Verif.Props.Deeds
/-! # Requests are answered at most once (property C76) -/
namespace Verif.Props
open Verif Verif.Spec

variable {s : Sim} {C : Cfg} {w : Mach} {args : Option EnvArgs} {t : ℚ}

/-- C76: at every point of the reports, a module has not answered more often than it was asked: what was retrieved (or that nothing was), chunks that were made, keys that were
pressed, locations and objects that were seen, as reported for a buffer, are not more than the actions `+buffer>` of the rules that have been reported to fire before. -/
theorem C76 (hn : MovesForward C) (hb : (w.bufs.map Prod.fst).Nodup) (hp : NothingAsked w) (h : Reachable C w args t s) {l1 l2 : List (ℚ × Ev)} (htr : s.trace = l1 ++ l2) (buffer : String) :
    answersOf buffer l1 ≤ requestsOf s.w.rules buffer l1 := answers_le hn hb hp h ⟨l2, htr.symm⟩

theorem requestsIn_le {rules : CRules} {b n : String} (hd : ∀ r rhs, alook n rules = some r → r.body.rhs = .ok rhs → (rhs.map Prod.fst).Nodup) : requestsIn rules b n ≤ 1 := by
  unfold requestsIn
  cases hr : alook n rules with
  | none => exact Nat.zero_le _
  | some r =>
    dsimp only
    cases hrhs : r.body.rhs with
    | error e => exact Nat.zero_le _
    | ok rhs =>
      dsimp only
      have := List.nodup_iff_count_le_one.1 (hd r rhs hr hrhs) ⟨'+', b⟩
      refine le_trans (le_of_eq ?_) this
      rw [List.count, List.countP_map]
      refine List.countP_congr fun x _ => ?_
      simp

/-- C76, firings: if the actions of every rule are different (as in a dictionary), a module has not answered more often than rules with an action for it have fired. -/
theorem C76_firings (hn : MovesForward C) (hb : (w.bufs.map Prod.fst).Nodup) (hp : NothingAsked w) (h : Reachable C w args t s)
    (hd : ∀ n r rhs, alook n s.w.rules = some r → r.body.rhs = .ok rhs → (rhs.map Prod.fst).Nodup) {l1 l2 : List (ℚ × Ev)} (htr : s.trace = l1 ++ l2) (buffer : String) :
    answersOf buffer l1 ≤ l1.countP (fun x => decide (FiresFor s.w.rules buffer x.2)) := by
  refine le_trans (C76 hn hb hp h htr buffer) ?_
  clear htr
  induction l1 with
  | nil => exact le_rfl
  | cons x l ih =>
    rw [List.countP_cons]
    have hx : requestsBy s.w.rules buffer x.2 ≤ if decide (FiresFor s.w.rules buffer x.2) = true then 1 else 0 := by
      by_cases hf : FiresFor s.w.rules buffer x.2
      · rw [if_pos (by simpa using hf)]
        unfold requestsBy
        split
        · split
          · exact requestsIn_le (hd _)
          · exact Nat.zero_le _
        · exact Nat.zero_le _
      · rw [if_neg (by simpa using hf)]
        unfold requestsBy
        unfold FiresFor at hf
        split
        · rename_i rule ha
          rw [ha] at hf
          split
          · rename_i hpr
            exact not_lt.1 fun h => hf ⟨hpr, h⟩
          · exact le_rfl
        · exact le_rfl
    have : requestsOf s.w.rules buffer (x :: l) = requestsBy s.w.rules buffer x.2 + requestsOf s.w.rules buffer l := rfl
    omega

/-! ## Examples -/

/-- Answers and requests so far. -/
def Stepped.tally (buffer : String) : Stepped → Option (ℕ × ℕ)
  | .ok s => some (answersOf buffer s.trace, requestsOf s.w.rules buffer s.trace)
  | _ => Option.none

theorem tally_reaches {n : ℕ} {b : String} {r : ℕ × ℕ} (h : Stepped.tally b (stepsOf C n (Sim.init w args t)) = some r) :
    ∃ s, Reachable C w args t s ∧ answersOf b s.trace = r.1 ∧ requestsOf s.w.rules b s.trace = r.2 := by
  cases hs : stepsOf C n (Sim.init w args t) with
  | ok s => rw [hs] at h; cases h; exact ⟨s, stepsOf_ok .init hs, rfl, rfl⟩
  | _ => rw [hs] at h; cases h

theorem exCfg_forward (P : Py) : MovesForward (exCfg P) := fun _ _ _ _ _ h => by cases h

/-- C76, an instance: a key was pressed because a rule asked for it, and the rule has fired again. -/
example : ∃ s, Reachable exC exPresser exEnvArgs 0 s ∧ answersOf "manual" s.trace = 1 ∧ requestsOf s.w.rules "manual" s.trace = 2 := by
  have h : Stepped.tally "manual" (stepsOf exC 100 exSim) = some (1, 2) := by decide +kernel
  exact tally_reaches h

/-- The assumptions hold. -/
example : MovesForward exC ∧ (exPresser.bufs.map Prod.fst).Nodup ∧ NothingAsked exPresser := ⟨exCfg_forward _, by decide, fun n i d hm => by cases hm⟩

/-- C76, an instance: a request that has not been answered yet, and later has. -/
example : (∃ s, Reachable exFullC exRecaller Option.none 0 s ∧ answersOf "retrieval" s.trace = 0 ∧ requestsOf s.w.rules "retrieval" s.trace = 1) ∧
    ∃ s, Reachable exFullC exRecaller Option.none 0 s ∧ answersOf "retrieval" s.trace = 1 ∧ requestsOf s.w.rules "retrieval" s.trace = 1 := by
  have h1 : Stepped.tally "retrieval" (stepsOf exFullC 11 (Sim.init exRecaller Option.none 0)) = some (0, 1) := by decide +kernel
  have h2 : Stepped.tally "retrieval" (stepsOf exFullC 30 (Sim.init exRecaller Option.none 0)) = some (1, 1) := by decide +kernel
  exact ⟨tally_reaches h1, tally_reaches h2⟩

end Verif.Props
