import Verif.Model.Buffer
import Verif.Model.Assoc
import Verif.Model.Subsymbolic
/-!
# Retrieval from declarative memory

Models `DecMemBuffer.retrieve` (declarative.py:183-259).
-/
namespace Verif

/-- `Chunk(otherchunk.typename, **{x[0]: check_bound_vars(actrvariables, x[1], negative_impossible) for x in
otherchunk.removeunused()})` (declarative.py:193-197; likewise goals.py:91-96): the request with its variables resolved. -/
def resolveChunk (P : Py) (bv : BV) (ni : Bool) (reg : Reg) (other : Chunk) : Reg × Except PyErr Chunk :=
  match resolveAll P bv ni (removeUnused P.H other) with
  | .error e => (reg, .error e)
  | .ok mods => createChunk P.toPyEnv reg other.typ (mods.map (fun p => (p.1, SlotArg.vv p.2)))

/-- The parameters `retrieve` looks up (declarative.py:187-188: the buffer's own override the model's). `sims` is the
class attribute `Chunk._similarities`. -/
structure RParams where
  subsymbolic : Bool
  partialMatching : Bool
  penalty : ℚ
  bll : Bool
  decay : ℝ
  optimized : Bool
  weights : List (String × ℝ)
  S : ℝ
  restricted : Bool
  only : Bool
  noise : ℝ
  threshold : ℝ
  F : ℝ
  f : ℝ
  ruleFiring : ℝ
  sims : SimTable

/-- A `DecMemBuffer` as far as `retrieve` is concerned: the registry of chunk types, its memory, `finst`, `recent`,
`activation`. -/
structure RBuf where
  reg : Reg
  dm : DecMem
  finst : ℕ
  recent : List (Option Chunk)
  activation : Option ℝ

/-- `chunk in self.recent`: each element is compared with `==`; a failed retrieval is remembered as None. -/
def inRecent (H : PyHash) (recent : List (Option Chunk)) (c : Chunk) : Bool :=
  recent.any (fun o => match o with
    | some d => ceq H d c
    | Option.none => pyEq H .none c.val)

/-- Is the chunk skipped because of the recency test (lines 204-213)? `want` is the value of `recently_retrieved`: absent,
False (or 'False'), anything else. -/
def recencySkips (H : PyHash) (finst : ℕ) (recent : List (Option Chunk)) (want : Option Bool) (c : Chunk) : Bool :=
  match want with
  | Option.none => false
  | some false => finst ≠ 0 && inRecent H recent c
  | some true => finst ≠ 0 && !inRecent H recent c

/-- The loop without subsymbolic computation (lines 244-247): `retrieved` after it. The request has no variables left, so
matching does not change its bindings. Entries of a dictionary have different keys, so `self.dm[chunk]` is the value of the
entry the loop is at. A chunk without traces is an IndexError. -/
def symLoop (H : PyHash) (req : Chunk) (now : ℚ) (skip : Chunk → Bool) : List (Chunk × List ℚ) → Option Chunk → Except PyErr (Option Chunk)
  | [], acc => .ok acc
  | (c, l) :: r, acc =>
    if skip c then symLoop H req now skip r acc
    else if (req.le H BV.init c).1 then
      match l with
      | [] => .error .index
      | t :: _ => symLoop H req now skip r (if t ≠ now then some c else acc)
    else symLoop H req now skip r acc

/-- Lines 216-220: the score of partial matching, or 0 for a matching chunk; nothing if the chunk is passed over. -/
noncomputable def pmScore (H : PyHash) (p : RParams) (req c : Chunk) : Option ℝ :=
  if p.partialMatching then
    match req.matchC H ⟨true, p.penalty, p.sims⟩ BV.init c with
    | .ok st => some (st.sim : ℝ)
    | .error _ => some 0
  else if (req.le H BV.init c).1 then some 0 else Option.none

/-- Lines 215-229: the activation of one chunk, or nothing if it is passed over; `draw` is the noise drawn for it. -/
noncomputable def candidateActivation (H : PyHash) (p : RParams) (req : Chunk) (now : ℚ) (bufs : List (String × Option Chunk)) (draw : ℝ)
    (dm : DecMem) (c : Chunk) (l : List ℚ) : DecMem × Except PyErr (Option ℝ) :=
  match pmScore H p req c with
  | Option.none => (dm, .ok Option.none)
  | some pm =>
    match baselevel now l p.bll p.decay ((cdLook H c dm.act).map (fun q : ℚ => (q : ℝ))) p.optimized with
    | .error .unboundLocal => (dm, .ok Option.none)
    | .error e => (dm, .error e)
    | .ok b =>
      match spreading H p.S p.restricted p.only bufs c p.weights dm 0 with
      | (dm', .error e) => (dm', .error e)
      | (dm', .ok sa) =>
        match instNoise p.noise draw with
        | .error e => (dm', .error e)
        | .ok ns => (dm', .ok (some (b + sa + pm + ns)))

/-- The best chunk so far with its activation (`max_A`; minus infinity if there is none). -/
abbrev Best := Option (Chunk × ℝ)

/-- Line 231. -/
noncomputable def better (thr : ℝ) (best : Best) (c : Chunk) (a : ℝ) : Best :=
  match best with
  | Option.none => if retrievalSuccess a thr then some (c, a) else best
  | some (_, m) => if retrievalSuccess a thr && decide (m < a) then some (c, a) else best

/-- The loop with subsymbolic computation (lines 202-242) from position `k` on: memory, best, and the exception if one is
raised. -/
noncomputable def subLoop (H : PyHash) (p : RParams) (req : Chunk) (now : ℚ) (skip : Chunk → Bool)
    (bufs : List (String × Option Chunk)) (draws : ℕ → ℝ) : ℕ → List (Chunk × List ℚ) → DecMem → Best → DecMem × Best × Option PyErr
  | _, [], dm, best => (dm, best, Option.none)
  | k, (c, l) :: r, dm, best =>
    if skip c then subLoop H p req now skip bufs draws (k + 1) r dm best
    else match candidateActivation H p req now bufs (draws k) dm c l with
      | (dm', .error e) => (dm', best, some e)
      | (dm', .ok Option.none) => subLoop H p req now skip bufs draws (k + 1) r dm' best
      | (dm', .ok (some a)) => subLoop H p req now skip bufs draws (k + 1) r dm' (better p.threshold best c a)

/-- Lines 255-258. -/
def remember (finst : ℕ) (recent : List (Option Chunk)) (res : Option Chunk) : List (Option Chunk) :=
  if finst = 0 then recent
  else
    let r := recent ++ [res]
    if finst < r.length then r.drop 1 else r

/-- `if not retrieved` (line 249): None, or a chunk without slots (`__len__` is 0). -/
def notRetrieved : Option Chunk → Bool
  | Option.none => true
  | some c => c.slots.isEmpty

/-- `retrieve(time, otherchunk, actrvariables, buffers, extra_tests, model_parameters)`: the buffer afterwards, and the chunk
(or None) with the time needed, or the exception. -/
noncomputable def RBuf.retrieve (P : Py) (p : RParams) (st : RBuf) (now : ℚ) (other : Chunk) (bv : BV)
    (bufs : List (String × Option Chunk)) (want : Option Bool) (draws : ℕ → ℝ) : RBuf × Except PyErr (Option Chunk × ℝ) :=
  match resolveChunk P bv false st.reg other with
  | (reg', .error e) => ({ st with reg := reg' }, .error e)
  | (reg', .ok req) =>
    let skip := recencySkips P.H st.finst st.recent want
    if p.subsymbolic then
      match subLoop P.H p req now skip bufs draws 0 st.dm.data st.dm Option.none with
      | (dm', best, some e) => ({ st with reg := reg', dm := dm', activation := (best.map Prod.snd).or st.activation }, .error e)
      | (dm', best, Option.none) =>
        let res := best.map Prod.fst
        let extra := match best with
          | some (c, a) => if c.slots.isEmpty then retrievalLatency p.threshold p.F p.f else retrievalLatency a p.F p.f
          | Option.none => retrievalLatency p.threshold p.F p.f
        ({ st with reg := reg', dm := dm', activation := (best.map Prod.snd).or st.activation,
                   recent := remember st.finst st.recent res }, .ok (res, extra))
    else
      match symLoop P.H req now skip st.dm.data Option.none with
      | .error e => ({ st with reg := reg' }, .error e)
      | .ok res =>
        ({ st with reg := reg', recent := remember st.finst st.recent res },
          .ok (res, if notRetrieved res then p.ruleFiring else 0))

end Verif
