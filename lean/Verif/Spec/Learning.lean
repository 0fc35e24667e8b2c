import Verif.Spec.Cycle
/-! # Specification of utility learning over whole histories -/
namespace Verif.Spec
open Verif

/-- How one cycle of the procedural module ended. -/
inductive CycleEnd where
  | nothing
  | stopped (n : String)
  | fired (n : String)

/-- What has been reported in one cycle. -/
def EndsAs (l : List (Mach × YV)) : CycleEnd → Prop
  | .nothing => ∀ x ∈ l, ¬ IsOutcome x
  | .stopped n => ∃ x ∈ l, ∃ e, x.2 = .ev e ∧ e.act = .stopped n
  | .fired n => ∃ x ∈ l, ∃ e, x.2 = .ev e ∧ e.act = .fired n

/-- The utilities and rewards of rules, and for each rule the times of the uses that have not been rewarded yet. -/
structure Ledger where
  utility : String → Option ℚ
  reward : String → Option ℚ
  pending : String → List ℚ

/-- The utilities, rewards and recorded uses of a model. -/
def ledgerOf (w : Mach) : Ledger where
  utility n := (alook n w.rules).map CRule.utility
  reward n := (alook n w.rules).bind CRule.reward
  pending n := (alook n w.used).getD []

/-- One more use. -/
def Ledger.use (b : Ledger) (n : String) (s : ℚ) : Ledger where
  utility := b.utility
  reward := b.reward
  pending m := if m = n then b.pending m ++ [s] else b.pending m

/-- The reward `r` is received at time `now`: each rule makes one step for each use on record, other rules none, and the record is
empty. -/
structure Rewarded (alpha r now : ℚ) (b b' : Ledger) : Prop where
  same : ∀ n, b.utility n = Option.none → b'.utility n = Option.none
  steps : ∀ n u, b.utility n = some u → ∃ u', b'.utility n = some u' ∧ LearnSteps alpha r now (b.pending n) u u'
  reward : b'.reward = b.reward
  pending : ∀ n, b'.pending n = []

/-- What one cycle that began at time `s` does to the ledger, when rules fire after `delay`. If `stops` is true, rules that were
selected but stopped from firing count as used. -/
inductive LedgerStep (stops : Bool) (alpha delay s : ℚ) : CycleEnd → Ledger → Ledger → Prop
  | nothing {b : Ledger} : LedgerStep stops alpha delay s .nothing b b
  | stopped {b : Ledger} {n : String} : LedgerStep stops alpha delay s (.stopped n) b (if stops then b.use n s else b)
  | fired {b : Ledger} {n : String} : b.reward n = Option.none → LedgerStep stops alpha delay s (.fired n) b (b.use n s)
  | rewarded {b b' : Ledger} {n : String} {r : ℚ} : b.reward n = some r → Rewarded alpha r (s + delay) (b.use n s) b' →
      LedgerStep stops alpha delay s (.fired n) b b'

/-- A sequence of cycles. -/
inductive LedgerSteps (stops : Bool) (alpha delay : ℚ) : List (ℚ × CycleEnd) → Ledger → Ledger → Prop
  | nil {b : Ledger} : LedgerSteps stops alpha delay [] b b
  | cons {s : ℚ} {o : CycleEnd} {h : List (ℚ × CycleEnd)} {b b1 b' : Ledger} : LedgerStep stops alpha delay s o b b1 →
      LedgerSteps stops alpha delay h b1 b' → LedgerSteps stops alpha delay ((s, o) :: h) b b'

/-- The names of compiled rules: those of the two rules, and perhaps a number. -/
def PairName (n m : String) : Prop := ∃ n2 i, m = n ++ " and " ++ n2 ++ i

/-- What the compilation of rules does to the ledger: nothing, or a new rule begins with utility 0 and no reward, or the utility of a rule
that is made again moves towards that of the first of its two rules. -/
inductive Compiles (alpha : ℚ) (b : Ledger) : Ledger → Prop
  | nothing : Compiles alpha b b
  | added {m n : String} : PairName n m → b.utility m = Option.none → Compiles alpha b { b with utility := fun x => if x = m then some 0 else b.utility x }
  | again {m n : String} {u v u' : ℚ} : PairName n m → b.utility m = some u → b.utility n = some v → IsRounded ((1 - alpha) * u + alpha * v) u' →
      Compiles alpha b { b with utility := fun x => if x = m then some u' else b.utility x }

/-- What one cycle does to the ledger when rules are compiled: this happens after the reward has been given. -/
inductive CompilingStep (stops : Bool) (alpha delay s : ℚ) : CycleEnd → Ledger → Ledger → Prop
  | plain {o : CycleEnd} {b b' : Ledger} : LedgerStep stops alpha delay s o b b' → CompilingStep stops alpha delay s o b b'
  | compiled {n : String} {b b1 b' : Ledger} : LedgerStep stops alpha delay s (.fired n) b b1 → Compiles alpha b1 b' →
      CompilingStep stops alpha delay s (.fired n) b b'

/-- A sequence of such cycles. -/
inductive CompilingSteps (stops : Bool) (alpha delay : ℚ) : List (ℚ × CycleEnd) → Ledger → Ledger → Prop
  | nil {b : Ledger} : CompilingSteps stops alpha delay [] b b
  | cons {s : ℚ} {o : CycleEnd} {h : List (ℚ × CycleEnd)} {b b1 b' : Ledger} : CompilingStep stops alpha delay s o b b1 →
      CompilingSteps stops alpha delay h b1 b' → CompilingSteps stops alpha delay ((s, o) :: h) b b'

/-- A history: cycles of the procedural module that began at the given times and ended in the given ways, from the first state to the
last one. During and between cycles others change what is not private to the procedural module. -/
inductive History (C : Cfg) : List (ℚ × CycleEnd) → Mach → Mach → Prop
  | nil {w : Mach} : History C [] w w
  | cons {s : ℚ} {o : CycleEnd} {h : List (ℚ × CycleEnd)} {w w1 w2 w' : Mach} {l : List (Mach × YV)} :
      Runs Private (genProcedural C s w) l (.ret w1 ()) → EndsAs l o → Private w1 w2 → History C h w2 w' → History C ((s, o) :: h) w w'

end Verif.Spec
