import Verif.Spec.Waiting
import Verif.Spec.Vision
/-! # Specification: where requests and what modules report come from (properties C72, C73 and C74) -/
namespace Verif.Spec
open Verif

/-- The state `m` occurs in the next step of `s`: the next event is taken, and some of its callbacks have been called. -/
def Moment (C : Cfg) (s m : Sim) : Prop :=
  ∃ en q l1 l2, s.queue = en :: q ∧ (s.events en.ev).callbacks = some (l1 ++ l2) ∧
    m = l1.foldl (callback C en.ev ((s.events en.ev).value.getD (.ok .nothing)))
      { s with now := en.time, queue := q, events := fset s.events en.ev { s.events en.ev with callbacks := Option.none } }

/-- A rule that fires: its name, what it tests and does, the values of its variables, and the time. -/
structure Firing where
  name : String
  body : Body
  bv : BV
  time : ℚ

/-- The conditions of the rule hold, with these values of its variables. -/
def CanFire (C : Cfg) (w : Mach) (f : Firing) : Prop :=
  ∃ rule lhs, alook f.name w.rules = some rule ∧ rule.body = f.body ∧ f.body.lhs = .ok lhs ∧ lhsTest C.P.H w.faces lhs BV.init = .ok (some f.bv)

/-- It has been reported that the rule fired at its time. -/
def HasFired (reports : List (ℚ × Verif.Ev)) (f : Firing) : Prop := ∃ x ∈ reports, x.2 = ⟨round4 f.time, "PROCEDURAL", .fired f.name⟩

/-- The rule has the action `+name> v` or `*name> v`, and this is the process for it. -/
def AsksFor (f : Firing) (name : String) (d : Desc) : Prop :=
  ∃ rhs v, f.body.rhs = .ok rhs ∧
    (((⟨'+', name⟩, v) ∈ rhs ∧ d = .retrieveorset name v f.bv f.time) ∨ ((⟨'*', name⟩, v) ∈ rhs ∧ d = .modifyRequest name v f.bv f.time))

/-- Processes for actions of rules. -/
def ByRule : Desc → Prop
  | .retrieveorset .. => True
  | .modifyRequest .. => True
  | _ => False

/-- The buffer `name` belongs to a memory in which the chunk is. If the memory is asked for `v`, whose variables have these values, and
there is no partial matching, the chunk is what was asked for. -/
def InMemory (C : Cfg) (w : Mach) (name : String) (v : RVal) (bv : BV) (c : Chunk) : Prop :=
  ∃ b i m l ch reg' req, alook name w.bufs = some b ∧ b.dm = some i ∧ w.mems[i]? = some m ∧ (c, l) ∈ m.data ∧ v = .chunk ch ∧
    resolveChunk C.P bv false w.reg ch = (reg', .ok req) ∧ (C.rp.subsymbolic = false ∨ C.rp.partialMatching = false → (req.le C.P.H BV.init c).1 = true)

/-- On the way to `s` the conditions of the rule held, with these values of its variables. -/
def HeldBefore (C : Cfg) (w : Mach) (args : Option EnvArgs) (t : ℚ) (s : Sim) (f : Firing) : Prop :=
  ∃ s1 m s2, Reachable C w args t s1 ∧ Moment C s1 m ∧ CanFire C m.w f ∧ Stepped.leads (s1.step C) s2 ∧ GoesOn C s2 s

/-- On the way to `s` the conditions of the rule held, and when it had been reported that it fired, the model was such. -/
def FoundBefore (C : Cfg) (w : Mach) (args : Option EnvArgs) (t : ℚ) (s : Sim) (f : Firing) (Q : Mach → Prop) : Prop :=
  ∃ s1 m1 s2 m2 s3, Reachable C w args t s1 ∧ Moment C s1 m1 ∧ CanFire C m1.w f ∧ GoesOn C s1 s2 ∧ Moment C s2 m2 ∧ HasFired m2.trace f ∧
    Q m2.w ∧ Stepped.leads (s2.step C) s3 ∧ GoesOn C s3 s

/-- No process of a module has been asked for yet: at most a buffer is to be cleared, or there is a search nobody asks for. -/
def NothingAsked (w : Mach) : Prop :=
  ∀ n i d, .gen n i d ∈ w.procs → (∃ m bv t, d = .clear m bv t) ∨ (∃ m l t, d = .autoSearch m l t) ∨ ∃ m l t, d = .autoBuffer m l t

/-- The buffer `name` is a motor buffer. -/
def ForHands (w : Mach) (name : String) : Prop := ∃ b, alook name w.bufs = some b ∧ b.cls = .motor

/-- The object `s` is on the screen, at the place `p`. -/
def IsShown (w : Mach) (s : Stim) (p : ℚ × ℚ) : Prop := ∃ env screen x, w.env = some env ∧ env.stimulus = some screen ∧ (x, s) ∈ screen ∧ s.pos = some p

/-- The chunk describes the pixel at `p`. -/
def Pixel (c : Chunk) (p : ℚ × ℚ) : Prop := ∃ a b, IntPart p.1 a ∧ IntPart p.2 b ∧ LocatedAt c (a, b)

/-- The chunk says what the object looks like, and where it is: its type is the one the object names (otherwise `_visual`), its value the text
of the object (without a text, the empty text), and every other attribute is a slot. Texts with special characters are left open. -/
def Depicts (c : Chunk) (s : Stim) (p : ℚ × ℚ) : Prop :=
  c.typ = s.visType.getD "_visual" ∧
    ((∀ x ∈ (s.text.getD "").toList, x ≠ '=' ∧ x ≠ '!') → ("value", SlotOf.vv ⟨.str (s.text.getD ""), Option.none, [], []⟩) ∈ c.slots) ∧
    (∀ n v, alook n s.attrs = some v → n ∉ ["value", "screen_pos", "cmd"] → (∀ x ∈ v.toList, x ≠ '=' ∧ x ≠ '!') → (n, SlotOf.vv ⟨.str v, Option.none, [], []⟩) ∈ c.slots) ∧
    ∃ place, ("screen_pos", SlotOf.vv ⟨.chunk place.typ place.slots, Option.none, [], []⟩) ∈ c.slots ∧ Pixel place p

/-- The value is a place, whose coordinates are read as the place `p`. -/
def PlaceIs (C : Cfg) (v : Val) (p : ℚ × ℚ) : Prop :=
  ∃ t sl x y, v = .chunk t sl ∧ (∃ u, alook "screen_x" sl = some (.vv u) ∧ u.values = .str x) ∧ (∃ u, alook "screen_y" sl = some (.vv u) ∧ u.values = .str y) ∧
    C.pyFloat x = some p.1 ∧ C.pyFloat y = some p.2

end Verif.Spec
