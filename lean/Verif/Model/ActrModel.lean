import Verif.Model.Chunk
import Verif.Model.Err
/-!
# The model object

Models class `ACTRModel` (model.py) as far as parameters, memories and buffers are concerned. Declarative memories and buffers
are objects: they are given numbers in the order in which they are created.
-/
namespace Verif

/-- The classes of buffers: `Goal` (goals.py), `DecMemBuffer` (declarative.py), `Visual` and `VisualLocation` (vision.py),
`Motor` (motor.py). -/
inductive BClass where
  | goal | retrieval | visual | visualLocation | motor
deriving DecidableEq, Repr

/-- A buffer object as far as `ACTRModel` is concerned: its class, and its memory `dm` (buffers.py:27-38). -/
structure BObj where
  cls : BClass
  dm : Option ℕ
deriving DecidableEq, Repr

/-- The attributes of `ACTRModel` (model.py:77-111): `decmems`, the buffers `__buffers`, `goals`, `retrievals`, `visbuffers`, and
whether there is an environment. `nmem` is the number of memories created so far, `objs` are the buffer objects. -/
structure ActrModel where
  nmem : ℕ
  decmems : List (String × ℕ)
  objs : List BObj
  buffers : List (String × ℕ)
  goals : List (String × ℕ)
  retrievals : List (String × ℕ)
  visbuffers : List (String × ℕ)
  env : Bool
deriving DecidableEq, Repr

/-- `ACTRModel(environment)` (model.py:77-111). -/
def ActrModel.init (env : Bool) : ActrModel :=
  ⟨1, [("decmem", 0)], [⟨.goal, Option.none⟩, ⟨.retrieval, Option.none⟩], [("g", 0), ("retrieval", 1)], [("g", 0)],
    [("retrieval", 1)], [], env⟩

/-- The property `decmem` (model.py:127-135). -/
def ActrModel.decmem (m : ActrModel) : Except PyErr ℕ :=
  match m.decmems with
  | [(_, d)] => .ok d
  | _ => .error .value

/-- The property `retrieval` (model.py:113-121). Its setter (model.py:123-125) is `set_retrieval`. -/
def ActrModel.retrieval (m : ActrModel) : Except PyErr ℕ :=
  match m.retrievals with
  | [(_, i)] => .ok i
  | _ => .error .value

/-- The property `goal` (model.py:152-160). Its setter (model.py:162-164) is `set_goal`. -/
def ActrModel.goal (m : ActrModel) : Except PyErr ℕ :=
  match m.goals with
  | [(_, i)] => .ok i
  | _ => .error .value

/-- `set_decmem(data)` (model.py:141-150): returns the new memory. Simplification: `DecMem(data)` does not raise. -/
def ActrModel.setDecmem (m : ActrModel) : ActrModel × ℕ :=
  ({ m with nmem := m.nmem + 1,
            decmems := if 1 < m.decmems.length then aset ("decmem" ++ toString m.decmems.length) m.nmem m.decmems
              else aset "decmem" m.nmem m.decmems }, m.nmem)

/-- `set_goal(name, delay)` (model.py:179-190). -/
def ActrModel.setGoal (m : ActrModel) (name : String) : ActrModel :=
  { m with objs := m.objs ++ [⟨.goal, Option.none⟩], buffers := aset name m.objs.length m.buffers,
           goals := aset name m.objs.length m.goals }

/-- `set_retrieval(name)` (model.py:166-177). -/
def ActrModel.setRetrieval (m : ActrModel) (name : String) : ActrModel :=
  { m with objs := m.objs ++ [⟨.retrieval, Option.none⟩], buffers := aset name m.objs.length m.buffers,
           retrievals := aset name m.objs.length m.retrievals }

/-- `visualBuffer(name_visual, name_visual_location, default_harvest)` (model.py:192-204). -/
def ActrModel.visualBuffer (m : ActrModel) (v l : String) (harvest : Option ℕ) : ActrModel :=
  { m with objs := m.objs ++ [⟨.visual, harvest⟩, ⟨.visualLocation, harvest⟩],
           visbuffers := aset l (m.objs.length + 1) (aset v m.objs.length m.visbuffers) }

/-- `buffer.dm = value` by the user. -/
def ActrModel.setDm (m : ActrModel) (i : ℕ) (d : Option ℕ) : ActrModel :=
  { m with objs := m.objs.modify i (fun b => { b with dm := d }) }

/-- `for key in self.__buffers: self.__buffers[key].dm = d` (model.py:300-301). -/
def giveAll (d : ℕ) (buffers : List (String × ℕ)) (objs : List BObj) : List BObj :=
  buffers.foldl (fun os p => os.modify p.2 (fun b => { b with dm := some d })) objs

/-- model.py:299-305. `full d` says whether the memory `d` contains anything; a buffer's memory is false if it is None or
empty. -/
def ActrModel.harvestSetup (m : ActrModel) (full : ℕ → Bool) : Except PyErr ActrModel :=
  match m.decmems with
  | [(_, d)] => .ok { m with objs := giveAll d m.buffers m.objs }
  | _ =>
    if (m.decmems.filter (fun p => full p.2)).length = 1 then
      -- self.decmem raises here
      if m.buffers.any (fun p => match m.objs[p.2]? with
        | some b => !(match b.dm with | some d => full d | Option.none => false)
        | Option.none => false) then .error .value else .ok m
    else .ok m

/-- The values of the dictionary of memories in use (model.py:307-308). -/
def ActrModel.usedMems (m : ActrModel) : List ℕ := m.buffers.filterMap (fun p => (m.objs[p.2]?).bind BObj.dm)

/-- `simulation(...)` up to the creation of the simulation object (model.py:284-327): the model afterwards. -/
def ActrModel.simulation (m : ActrModel) (full : ℕ → Bool) : Except PyErr ActrModel :=
  match m.harvestSetup full with
  | .error e => .error e
  | .ok m1 =>
    let mems := m1.usedMems
    let m2 := { m1 with objs := m1.objs ++ [⟨.motor, Option.none⟩], buffers := aset "manual" m1.objs.length m1.buffers }
    if !m2.env then .ok m2
    else if !m2.visbuffers.isEmpty then
      .ok { m2 with buffers := m2.visbuffers.foldl (fun bs p => aset p.1 p.2 bs) m2.buffers }
    else
      match mems with
      | [] => .error .index
      | d :: _ =>
        .ok { m2 with objs := m2.objs ++ [⟨.visual, some d⟩, ⟨.visualLocation, some d⟩],
                      buffers := aset "visual_location" (m2.objs.length + 1) (aset "visual" m2.objs.length m2.buffers) }

/-- The operations on a model. -/
inductive ModelOp where
  | setDecmem
  | setGoal (name : String)
  | setRetrieval (name : String)
  | visualBuffer (v l : String) (harvest : Option ℕ)
  | setDm (i : ℕ) (d : Option ℕ)
  | simulation (full : ℕ → Bool)

/-- One operation. The case of a simulation that raises does not arise (`sim_inv` in Props/ActrModel). -/
def ActrModel.step (m : ActrModel) : ModelOp → ActrModel
  | .setDecmem => m.setDecmem.1
  | .setGoal n => m.setGoal n
  | .setRetrieval n => m.setRetrieval n
  | .visualBuffer v l h => m.visualBuffer v l h
  | .setDm i d => m.setDm i d
  | .simulation full => match m.simulation full with | .ok m' => m' | .error _ => m

def ActrModel.run (m : ActrModel) (ops : List ModelOp) : ActrModel := ops.foldl ActrModel.step m


/-- The values of parameters as far as they occur as defaults: False/True, numbers, {}; anything else a user may give. -/
inductive ParamVal where
  | bool (b : Bool)
  | num (q : ℚ)
  | emptyDict
  | other (s : String)
deriving DecidableEq

/-- `MODEL_PARAMETERS` (model.py:47-75). -/
def modelDefaults : List (String × ParamVal) :=
  [("subsymbolic", .bool false), ("rule_firing", .num 0.05), ("latency_factor", .num 0.1), ("latency_exponent", .num 1),
   ("decay", .num 0.5), ("baselevel_learning", .bool true), ("optimized_learning", .bool false),
   ("instantaneous_noise", .num 0), ("retrieval_threshold", .num 0), ("buffer_spreading_activation", .emptyDict),
   ("spreading_activation_restricted", .bool false), ("strength_of_association", .num 0),
   ("association_only_from_chunks", .bool true), ("partial_matching", .bool false), ("mismatch_penalty", .num 1),
   ("activation_trace", .bool false), ("utility_noise", .num 0), ("utility_learning", .bool false), ("utility_alpha", .num 0.2),
   ("motor_prepared", .bool false), ("strict_harvesting", .bool false), ("production_compilation", .bool false),
   ("automatic_visual_search", .bool true), ("emma", .bool true), ("emma_noise", .bool true),
   ("emma_landing_site_noise", .bool false), ("eye_mvt_angle_parameter", .num 1), ("eye_mvt_scaling_parameter", .num 0.01)]

/-- The parameters of a new model (model.py:100-109). The keyword arguments have different names, all of them strings, so that
the TypeError of line 108 does not occur. -/
def modelParameters (given : List (String × ParamVal)) : Except PyErr (List (String × ParamVal)) :=
  if given.all (fun p => (modelDefaults.map Prod.fst).contains p.1) then
    .ok (given.foldl (fun d p => aset p.1 p.2 d) modelDefaults)
  else .error .actr

end Verif
