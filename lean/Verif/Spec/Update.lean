import Verif.Spec.Machine
import Verif.Spec.Rules
/-! # Specification of the right-hand side of rules -/
namespace Verif.Spec
open Verif

/-- What others leave alone while the actions of a rule are performed: the list of processes, the bindings of the rule, and which
buffers there are. -/
structure Calm (w w' : Mach) : Prop where
  procs : w'.procs = w.procs
  bv : w'.bv = w.bv
  names : w'.bufs.map Prod.fst = w.bufs.map Prod.fst

/-- The order of actions: extra tests and commands, modifications, overwrites, modification requests, requests, clearings. -/
def stages : List (List Char) := [['?', '!'], ['='], ['@'], ['*'], ['+'], ['~']]

/-- An action with the sign `c` comes before one with the sign `d`. -/
def Before (c d : Char) : Prop := ∃ (i j : ℕ) (a b : List Char), i < j ∧ stages[i]? = some a ∧ stages[j]? = some b ∧ c ∈ a ∧ d ∈ b

/-- The actions in the right order; within one stage as they were written. -/
structure Arranged (written sorted : List (Key × RVal)) : Prop where
  perm : sorted.Perm written
  order : sorted.Pairwise (fun a b => ¬ Before b.1.code a.1.code)
  stable : ∀ s ∈ stages, sorted.filter (fun a => a.1.code ∈ s) = written.filter (fun a => a.1.code ∈ s)

/-- The requests among the actions: they are put into the list of processes that start when the rule is done. -/
def queued (l : List (Key × RVal)) : List (Key × RVal) := l.filter (fun a => a.1.code = '+' ∨ a.1.code = '*')

/-- The other actions: they are carried out at once. -/
def atOnce (l : List (Key × RVal)) : List (Key × RVal) := l.filter (fun a => ¬ (a.1.code = '+' ∨ a.1.code = '*'))

/-- Performing the action has been reported by this event. -/
def DoneBy (k : Key) (e : Verif.Ev) : Prop := e.proc = k.name ∧
  ((k.code = '?' ∧ e.act = .extraTest) ∨ (k.code = '!' ∧ e.act = .executed) ∨ (k.code = '=' ∧ e.act = .modified) ∨
   (k.code = '@' ∧ ∃ c, e.act = .wrote c) ∨ (k.code = '~' ∧ e.act = .cleared))

/-- Exactly these actions are reported, in this order; apart from that there are only steps that are not reported. -/
inductive Performs : List Key → List YV → Prop
  | nil : Performs [] []
  | silent {ks : List Key} {e : Verif.Ev} {l : List YV} : e.act = .unknown → Performs ks l → Performs ks (.ev e :: l)
  | done {k : Key} {ks : List Key} {e : Verif.Ev} {l : List YV} : DoneBy k e → Performs ks l → Performs (k :: ks) (.ev e :: l)

/-- The process is the request made by this action. -/
def Requested (bv : BV) (t : ℚ) (a : Key × RVal) (p : PItem) : Prop := ∃ id,
  (a.1.code = '+' ∧ p = .gen a.1.name id (.retrieveorset a.1.name a.2 bv t)) ∨
  (a.1.code = '*' ∧ p = .gen a.1.name id (.modifyRequest a.1.name a.2 bv t))

/-- The process clears the buffer. -/
def Clears (bv : BV) (t : ℚ) (n : String) (p : PItem) : Prop := ∃ id, p = .gen n id (.clear n bv t)

/-- The buffer is mentioned on the right-hand side. -/
def OnRhs (rhs : List (Key × RVal)) (n : String) : Prop := ∃ a ∈ rhs, a.1.name = n

end Verif.Spec
