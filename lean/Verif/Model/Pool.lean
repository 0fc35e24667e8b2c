import Verif.Model.Modules
/-!
# Several movements at a time

Movements that have been prepared are carried out by processes of their own (simulation.py:178-183), so that several of them can be under
way: the process waiting for the earliest time goes on first (`__localprocess__`, simulation.py:185-208). Only the movements of one motor
buffer are modelled here; nothing else touches that buffer while a movement is under way. Events at the same time may come in any order.
-/
namespace Verif

/-- What can be observed: movement `n` has been asked for, or an event of it has come about. -/
inductive Happening where
  | asked (n : ℕ) (key : String) (t : ℚ)
  | came (n : ℕ) (e : Ev)

/-- Movement `n`, waiting for `e` to come about. -/
structure Waiting where
  n : ℕ
  e : Ev
  k : Mach → Out Mach YV Unit

/-- The movements under way. -/
structure Pool where
  now : ℚ
  w : Mach
  next : ℕ
  waiting : List Waiting

/-- One step. A movement whose preparation ends at `t` starts when the clock has come that far (`round4 t`); or the earliest event comes
about and its process goes on until it waits again or ends. -/
inductive PoolStep (C : Cfg) (name : String) : Pool → Happening → Pool → Prop
  | ask {p : Pool} {key : String} {t : ℚ} {w1 : Mach} {e : Ev} {k : Mach → Out Mach YV Unit} :
      p.now ≤ round4 t → (∀ x ∈ p.waiting, round4 t ≤ x.e.time) →
      (Desc.motorContinue name key t (timePresses key)).run C p.w = .yield w1 (.ev e) k →
      PoolStep C name p (.asked p.next key t) ⟨round4 t, w1, p.next + 1, p.waiting ++ [⟨p.next, e, k⟩]⟩
  | goOn {p : Pool} {pre post : List Waiting} {x : Waiting} {w1 : Mach} {e : Ev} {k : Mach → Out Mach YV Unit} :
      p.waiting = pre ++ x :: post → (∀ y ∈ p.waiting, x.e.time ≤ y.e.time) → x.k p.w = .yield w1 (.ev e) k →
      PoolStep C name p (.came x.n x.e) ⟨x.e.time, w1, p.next, pre ++ ⟨x.n, e, k⟩ :: post⟩
  | finish {p : Pool} {pre post : List Waiting} {x : Waiting} {w1 : Mach} :
      p.waiting = pre ++ x :: post → (∀ y ∈ p.waiting, x.e.time ≤ y.e.time) → x.k p.w = .ret w1 () →
      PoolStep C name p (.came x.n x.e) ⟨x.e.time, w1, p.next, pre ++ post⟩

/-- Any number of steps, with what happened in the order in which it happened. -/
inductive PoolRun (C : Cfg) (name : String) (p0 : Pool) : List Happening → Pool → Prop
  | nil : PoolRun C name p0 [] p0
  | snoc {tr : List Happening} {p p' : Pool} {h : Happening} : PoolRun C name p0 tr p → PoolStep C name p h p' → PoolRun C name p0 (tr ++ [h]) p'

end Verif
