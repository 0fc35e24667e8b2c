import Verif.Lemmas.Origin
import Verif.Lemmas.ExSim
import Verif.Props.Compile
/-! # Where retrieved chunks come from (property C72) -/
namespace Verif.Props
open Verif Verif.Spec

variable {s : Sim} {C : Cfg} {w : Mach} {args : Option EnvArgs} {t : ℚ}

theorem _root_.Verif.Spec.NothingAsked.idle (hp : NothingAsked w) : ∀ n i d, .gen n i d ∈ w.procs → ¬ ByRule d ∧ d.kept = Option.none := fun n i d hd => by
  rcases hp n i d hd with ⟨_, _, _, rfl⟩ | ⟨_, _, _, rfl⟩ | ⟨_, _, _, rfl⟩ <;> exact ⟨id, rfl⟩

/-- Whatever a module reports, a rule that fired has asked for. -/
theorem told_asked (hp : NothingAsked w) (h : Reachable C w args t s) {l1 l2 : List (ℚ × Ev)} {q : ℚ} {e : Ev} (htr : s.trace = l1 ++ (q, e) :: l2)
    {r : Option Haul} (he : e.act.told = some r) : ∃ f rhs v, HeldBefore C w args t s f ∧ HasFired l1 f ∧ f.body.rhs = .ok rhs ∧ (⟨'+', e.proc⟩, v) ∈ rhs ∧
      ∀ c, r = some c → FoundBefore C w args t s f fun m => Obtains C m e.proc v f.bv c := by
  obtain ⟨c, ha⟩ := asks_reachable hp.idle h
  obtain ⟨f, v, h1, ⟨rhs, v', h2, ⟨h3, h4⟩ | ⟨_, h4⟩⟩, h5, h6⟩ := ha.base.told l1 q e l2 htr r he
  · cases h4
    exact ⟨f, rhs, v, h1, h5, h2, h3, h6⟩
  · cases h4

theorem foundBefore_mono {f : Firing} {Q Q' : Mach → Prop} (hQ : ∀ m, Q m → Q' m) (h : FoundBefore C w args t s f Q) : FoundBefore C w args t s f Q' := by
  obtain ⟨s1, m1, s2, m2, s3, h1, h2, h3, h4, h5, h6, h7, h8⟩ := h
  exact ⟨s1, m1, s2, m2, s3, h1, h2, h3, h4, h5, h6, hQ _ h7, h8⟩

/-- C72, requests: whatever waits to be started because of an action `+name>` or `*name>` of a rule is the action of a rule that fired. The
fact that it fired has been reported; before that, its conditions held in some state, with the values of the variables that are used for
the request. -/
theorem C72_requested (hp : NothingAsked w) (h : Reachable C w args t s) {name : String} {i : ℕ} {d : Desc} (hd : .gen name i d ∈ s.w.procs) (hr : ByRule d) :
    ∃ f, HeldBefore C w args t s f ∧ HasFired s.trace f ∧ AsksFor f name d := by
  obtain ⟨c, ha⟩ := asks_reachable hp.idle h
  obtain ⟨f, h1, h2, h3⟩ := (ha.base.procs name i d hd).1 hr
  exact ⟨f, h1, h3, h2⟩

/-- C72: whenever it is reported that something was retrieved, or that nothing was, it has been reported before that a rule fired with the
action `+name> v` for this buffer, and the conditions of the rule had held, with certain values of its variables. If a chunk was retrieved,
it was in the memory of the buffer after this rule fired, and without partial matching it is what `v` stands for with these values. -/
theorem C72 (hp : NothingAsked w) (h : Reachable C w args t s) {l1 l2 : List (ℚ × Ev)} {q : ℚ} {e : Ev} (htr : s.trace = l1 ++ (q, e) :: l2)
    {r : Option Chunk} (he : e.act = .retrieved r) : ∃ f rhs v, HeldBefore C w args t s f ∧ HasFired l1 f ∧ f.body.rhs = .ok rhs ∧ (⟨'+', e.proc⟩, v) ∈ rhs ∧
      ∀ c, r = some c → FoundBefore C w args t s f fun m => InMemory C m e.proc v f.bv c := by
  obtain ⟨f, rhs, v, h1, h2, h3, h4, h5⟩ := told_asked hp h htr (r := r.map .chunk) (by rw [he]; rfl)
  exact ⟨f, rhs, v, h1, h2, h3, h4, fun c hc => h5 (.chunk c) (by rw [hc]; rfl)⟩

/-! ## Example -/

/-- A hash function that looks at the elements of tuples. -/
def exFullHash : PyHash :=
  { exHash with tup := fun l => l.foldl (fun n i => n * 1114112 ^ 4 + i.h * 4 + (match i.key with | .vars => 0 | .negvars => 1 | .values => 2 | .negvalues => 3)) 1 * 3 + 2 }

/-- The configuration. -/
noncomputable abbrev exFullC : Cfg := exCfg (exPy exFullHash)

/-- A key, or what a variable stands for. -/
def exKey (v : VarVal) : Chunk := ⟨"press", [("key", .vv v)]⟩

/-- A rule that asks for what it finds in the goal: `=g> key =x, ?retrieval> state free, buffer empty ==> =g> key =x, +retrieval> key =x`. -/
def exRecallRule : CRule :=
  ⟨⟨.ok [(⟨'=', "g"⟩, .chunk (exKey (exVar "x"))), (⟨'?', "retrieval"⟩, .dict [("state", "free"), ("buffer", "empty")])],
    .ok [(⟨'=', "g"⟩, .chunk (exKey (exVar "x"))), (⟨'+', "retrieval"⟩, .chunk (exKey (exVar "x")))]⟩, 0, Option.none⟩

/-- A model that remembers two keys. -/
def exRecaller : Mach :=
  { exMach [("press", ["key"])] [("g", { exBuf .goal with data := [exKey (exLit "a")] }), ("retrieval", { exBuf .decmem with dm := some 0 })] with
    mems := [⟨[(exKey (exLit "b"), [0]), (exKey (exLit "a"), [0])], [], [], []⟩], rules := [("recall", exRecallRule)], ordered := ["recall"] }

/-- The key that was retrieved. -/
def recalled (e : Ev) : Option String := match e.act with
  | .retrieved (some ⟨_, [("key", .vv ⟨.str k, _, _, _⟩)]⟩) => some k
  | _ => Option.none

/-- The keys that were retrieved. -/
def Stepped.recalls : Stepped → List String
  | .ok s => s.trace.filterMap fun x => recalled x.2
  | _ => []

/-- C72, an instance: the key is retrieved that the goal named, and not the one that was stored first. -/
example : ∃ s l1 q e l2 c, Reachable exFullC exRecaller Option.none 0 s ∧ s.trace = l1 ++ (q, e) :: l2 ∧ e.act = .retrieved (some c) ∧ recalled e = some "a" ∧
    ∃ f rhs v, HeldBefore exFullC exRecaller Option.none 0 s f ∧ HasFired l1 f ∧ f.body.rhs = .ok rhs ∧ (⟨'+', e.proc⟩, v) ∈ rhs ∧
      FoundBefore exFullC exRecaller Option.none 0 s f fun m => InMemory exFullC m e.proc v f.bv c := by
  have hr : Stepped.recalls (stepsOf exFullC 30 (Sim.init exRecaller Option.none 0)) = ["a"] := by decide +kernel
  cases hs : stepsOf exFullC 30 (Sim.init exRecaller Option.none 0) with
  | ok s =>
    rw [hs] at hr
    have hm : "a" ∈ s.trace.filterMap fun x => recalled x.2 := by rw [show (s.trace.filterMap fun x => recalled x.2) = ["a"] from hr]; exact .head _
    obtain ⟨⟨q, e⟩, hx, he⟩ := List.mem_filterMap.1 hm
    obtain ⟨l1, l2, htr⟩ := List.append_of_mem hx
    have hc : ∃ c, e.act = .retrieved (some c) := by
      have he' := he
      unfold recalled at he'
      dsimp only at he'
      split at he'
      · rename_i h; exact ⟨_, h⟩
      · cases he'
    obtain ⟨c, hc⟩ := hc
    have hreach : Reachable exFullC exRecaller Option.none 0 s := stepsOf_ok .init hs
    obtain ⟨f, rhs, v, h1, h2, h3, h4, h5⟩ := C72 (fun n i d hm => by cases hm) hreach htr hc
    exact ⟨s, l1, q, e, l2, c, hreach, htr, hc, he, f, rhs, v, h1, h2, h3, h4, h5 c rfl⟩
  | _ => rw [hs] at hr; cases hr

/-- Some request of a rule waits to be started. -/
def Stepped.asks : Stepped → Bool
  | .ok s => s.w.procs.any fun x => match x with
    | .gen _ _ (.retrieveorset ..) => true
    | _ => false
  | _ => false

/-- C72_requested, an instance. -/
example : ∃ s name i d f, Reachable exFullC exRecaller Option.none 0 s ∧ .gen name i d ∈ s.w.procs ∧ ByRule d ∧ HeldBefore exFullC exRecaller Option.none 0 s f ∧ HasFired s.trace f ∧ AsksFor f name d := by
  have hr : Stepped.asks (stepsOf exFullC 11 (Sim.init exRecaller Option.none 0)) = true := by decide +kernel
  cases hs : stepsOf exFullC 11 (Sim.init exRecaller Option.none 0) with
  | ok s =>
    rw [hs] at hr
    obtain ⟨x, hx, hm⟩ := List.any_eq_true.1 hr
    split at hm
    · rename_i name i n v bv t
      have hreach : Reachable exFullC exRecaller Option.none 0 s := stepsOf_ok .init hs
      obtain ⟨f, h1, h2, h3⟩ := C72_requested (fun n i d hm => by cases hm) hreach hx trivial
      exact ⟨s, name, i, _, f, hreach, hx, trivial, h1, h2, h3⟩
    · cases hm
  | _ => rw [hs] at hr; cases hr

end Verif.Props
