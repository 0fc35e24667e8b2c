import Verif.Model.Machine
/-!
# The processes of the modules

Models the generators of class `ProductionRules` that carry out the actions of rules (productions.py:600-964), the method `shift` of
the visual buffer (vision.py:319-359) and `chunk_from_stimulus` for visual objects (vision.py:374-415). Buffers not on the right
side of a rule, such as the two visual ones with automatic processes, are covered as well.
-/
namespace Verif

/-- A value used as a chunk. Anything else has none of the methods of a chunk. Simplification: this is found out before the buffer
is touched. -/
def RVal.asChunk : RVal → Except PyErr Chunk
  | .chunk c => .ok c
  | _ => .error .attribute

/-- `calculate_setting_time(updated)` (utilities.py:411-419): only goals have a delay. -/
def Mach.settingTime (w : Mach) (name : String) : ℚ :=
  match w.buf name with
  | some b => if b.cls = .goal then b.delay else 0
  | Option.none => 0

/-! ## Clearing -/

/-- `cleared.clear(time)` with the ways out of productions.py:617-628. `optional` is what the rule gave, or for goals the chunk that is
requested. A motor buffer's `clear` takes no time, a retrieval buffer's no memory: TypeError. Looking up a chunk in `self.dm` is a
KeyError, a dictionary or list is not hashable. -/
def clearBuf (C : Cfg) (name : String) (optional : RVal) (t : ℚ) (w : Mach) : Mach × Except PyErr Unit :=
  match w.buf name with
  | Option.none => (w, .error .attribute)
  | some b =>
    if b.cls = .motor then (w, .error .type)
    else
      match (w.bst b).clear C.P b.cls.kind t Option.none with
      | (st, .ok _) => (w.putBst name st, .ok ())
      | (_, .error _) =>
        let again (i : ℕ) := if b.cls = .decmem then (w, .error .type)
          else w.onBuf name (fun b st => st.clear C.P b.cls.kind t (some i))
        let byName := match alook name w.dms with
          | some i => again i
          | Option.none => (w, .error .actr)
        match w.dms with
        | [(_, i)] => again i
        | _ => match optional with
          | .nothing => byName
          | .chunk c => if c.slots.isEmpty then byName else (w, .error .key)
          | .tests d => if d.isEmpty then byName else (w, .error .type)
          | .cmds l => if l.isEmpty then byName else (w, .error .type)

/-- `clear` (productions.py:609-628). -/
def genClear (C : Cfg) (name : String) (optional : RVal) (t : ℚ) (freeing : Bool) : GenM Unit := do
  .set (·.setState name .busy)
  .act (clearBuf C name optional t)
  .event t name .cleared
  .set (fun w => if freeing then w.setState name .free else w)

/-! ## Extra tests, commands, modifications -/

/-- `extra_test` (productions.py:600-607). Anything can be stored; what is not a dictionary fails later. -/
def genExtraTest (name : String) (v : RVal) (t : ℚ) : GenM Unit := do
  .set (·.setState name .busy)
  .set (fun w => { w with extraTests := aset name (match v with | .tests d => d | _ => []) w.extraTests })
  .set (·.setState name .free)
  .event t name .extraTest

/-- The loop of `execute` (productions.py:635-639). A method does not change the class of its object. -/
def execAll (C : Cfg) (name : String) : List (String × String) → Mach → Mach × Except PyErr Unit
  | [], w => (w, .ok ())
  | c :: r, w =>
    match w.buf name with
    | Option.none => (w, .error .attribute)
    | some b =>
      match C.exec c b with
      | (b', .ok _) => execAll C name r (w.upd name (fun b => { b' with cls := b.cls }))
      | (b', .error e) => (w.upd name (fun b => { b' with cls := b.cls }), .error e)

/-- `execute` (productions.py:630-641). -/
def genExecute (C : Cfg) (name : String) (v : RVal) (t : ℚ) : GenM Unit := do
  .set (·.setState name .busy)
  .act (fun w => match v with
    | .cmds l => execAll C name l w
    | _ => (w, .error .type))
  .set (·.setState name .free)
  .event t name .executed

/-- The slots that are not empty (productions.py:651, 677, 787). -/
def givenSlots (c : Chunk) : Slots := c.slots.filter (fun p => match p.2 with | .empty => false | .vv _ => true)

/-- productions.py:652-659, 678-685: the slots of the left-hand side of the rule in use. Whatever goes wrong except for a missing
key, the clause `finally` fails because `slotvaldict` is not bound. -/
def lhsSlots (w : Mach) (name : String) : Except PyErr Slots :=
  match w.usedName with
  | Option.none => .error .type
  | some r => match alook r w.rules with
    | Option.none => .error .type
    | some rule => match rule.body.lhs with
      | .error _ => .error .unboundLocal
      | .ok l => match klook ⟨'=', name⟩ l with
        | Option.none => .ok []
        | some (.chunk c) => .ok c.slots
        | some (.dict _) => .error .unboundLocal

/-- productions.py:649-660, 675-686. -/
def recordModify (C : Cfg) (name : String) (c : Chunk) : GenM Unit := .act (fun w =>
  if C.compilation then
    match lhsSlots w name with
    | .error e => (w, .error e)
    | .ok d => ({ w with curSlots := aset name (.dict (dictUpdate d (givenSlots c))) w.curSlots }, .ok ())
  else (w, .ok ()))

/-- productions.py:700-703, 734-737. -/
def recordSet (C : Cfg) (name : String) (c : Chunk) : GenM Unit := .set (fun w =>
  if C.compilation then { w with curSlots := aset name (.dict c.slots) w.curSlots } else w)

/-- The variables of a rule taken for a stimulus: a dictionary that no stimulus equals, since its keys begin with "=" or "~". -/
def varsAsStim (bv : BV) : Stim :=
  ⟨Option.none, Option.none, Option.none, Option.none, Option.none, Option.none,
    bv.pos.map (fun p => ("=" ++ p.1, "")) ++ bv.neg.map (fun p => ("~=" ++ p.1, ""))⟩

/-- `modified.modify(otherchunk, temp_actrvariables)` (productions.py:662, 686). The second argument of `VisualLocation.modify` is a
stimulus (vision.py:66): the bindings are remembered as the object found, and the modification has no bindings. -/
def modifyBuf (C : Cfg) (name : String) (c : Chunk) (bv : BV) (w : Mach) : Mach × Except PyErr Unit :=
  match w.buf name with
  | Option.none => (w, .error .attribute)
  | some b =>
    if b.cls = .visualLocation then
      match w.onBuf name (fun _ st => st.modify C.P c BV.init) with
      | (w1, .ok _) => (w1.upd name (fun b => { b with seen := visRemember b.finst b.seen (some (varsAsStim bv)) }), .ok ())
      | (w1, .error e) => (w1, .error e)
    else w.onBuf name (fun _ st => st.modify C.P c bv)

/-- `modify` (productions.py:643-664). -/
def genModify (C : Cfg) (name : String) (v : RVal) (bv : BV) (t : ℚ) : GenM Unit := do
  .set (·.setState name .busy)
  let c ← GenM.lift v.asChunk
  recordModify C name c
  .act (modifyBuf C name c bv)
  .set (·.setState name .free)
  .event t name .modified

/-- `modify_request` (productions.py:665-688). -/
def genModifyRequest (C : Cfg) (name : String) (v : RVal) (bv : BV) (t : ℚ) : GenM Unit := do
  .set (·.setState name .busy)
  let d ← GenM.get (·.settingTime name)
  .event (t + d) name .unknown
  let c ← GenM.lift v.asChunk
  recordModify C name c
  .act (modifyBuf C name c bv)
  .set (·.setState name .free)
  .event (t + d) name .modified

/-! ## Setting chunks -/

/-- `updated.create(otherchunk, list(self.dm.values())[0], temp_actrvariables)` (productions.py:705, 739). Only goals and motor
buffers have a method `create`, that of motor buffers takes fewer arguments. -/
def createIn (C : Cfg) (name : String) (c : Chunk) (bv : BV) (w : Mach) : Mach × Except PyErr Unit :=
  match w.buf name with
  | Option.none => (w, .error .attribute)
  | some b =>
    if b.cls ≠ .goal ∧ b.cls ≠ .motor then (w, .error .attribute)
    else match w.dms with
      | [] => (w, .error .index)
      | (_, i) :: _ =>
        if b.cls = .motor then (w, .error .type)
        else w.onBuf name (fun _ st => st.create C.P c bv (some i))

/-- `list(updated)[0]`. -/
def firstOf (name : String) (w : Mach) : Mach × Except PyErr Chunk :=
  match w.buf name with
  | some b => match b.data with
    | c :: _ => (w, .ok c)
    | [] => (w, .error .index)
  | Option.none => (w, .error .attribute)

/-- `overwrite` (productions.py:690-707). -/
def genOverwrite (C : Cfg) (name : String) (v : RVal) (bv : BV) (t : ℚ) : GenM Unit := do
  .set (·.setState name .busy)
  let d ← GenM.get (·.settingTime name)
  .event (t + d) name .unknown
  let c ← GenM.lift v.asChunk
  recordSet C name c
  .act (createIn C name c bv)
  let made ← GenM.act (firstOf name)
  .set (·.setState name .free)
  .event (t + d) name (.wrote made)

/-- `retrieveorset` for a goal (productions.py:726-742). -/
def genSetGoal (C : Cfg) (name : String) (v : RVal) (bv : BV) (t : ℚ) : GenM Unit := do
  genClear C name v t false
  let d ← GenM.get (·.settingTime name)
  .event (t + d) name .unknown
  let c ← GenM.lift v.asChunk
  recordSet C name c
  .act (createIn C name c bv)
  let made ← GenM.act (firstOf name)
  .set (·.setState name .free)
  .event (t + d) name (.created made)

/-! ## Retrieval -/

/-- The value of a test such as `recently_retrieved`: absent, False (or 'False'), anything else. -/
def Mach.extraTest (w : Mach) (name test : String) : Option Bool :=
  ((alook name w.extraTests).bind (alook test)).map (fun v => v != "False")

/-- `retrieval.retrieve(time, otherchunk, temp_actrvariables, self.buffers, ...)` (productions.py:776). Without a memory the loop
over None is a TypeError. -/
noncomputable def retrieveIn (C : Cfg) (name : String) (c : Chunk) (bv : BV) (t : ℚ) (w : Mach) :
    Mach × Except PyErr (Option Chunk × ℚ) :=
  match w.buf name with
  | Option.none => (w, .error .attribute)
  | some b =>
    match b.dm.bind (fun i => (w.mems[i]?).map (fun m => (i, m))) with
    | Option.none =>
      match resolveChunk C.P bv false w.reg c with
      | (reg', .error e) => ({ w with reg := reg' }, .error e)
      | (reg', .ok _) => ({ w with reg := reg' }, .error .type)
    | some (i, m) =>
      let r := RBuf.retrieve C.P C.rp ⟨w.reg, m, b.finst, b.recent, b.activation⟩ t c bv
        (w.bufs.map (fun p => (p.1, p.2.data.head?))) (w.extraTest name "recently_retrieved") (C.draws w.tick)
      (({ w with reg := r.1.reg, mems := w.mems.set i r.1.dm, tick := w.tick + 1 } : Mach).upd name
        (fun b => { b with recent := r.1.recent, activation := r.1.activation }),
       r.2.map (fun x => (x.1, C.fl x.2)))

/-- productions.py:785-788. -/
def recordRetrieved (C : Cfg) (name : String) (c : Chunk) (res : Option Chunk) : GenM Unit := .set (fun w =>
  if C.compilation then { w with curSlots := aset name (.retr (givenSlots c) res) w.curSlots } else w)

/-- `retrieve` (productions.py:769-790). -/
noncomputable def genRetrieve (C : Cfg) (name : String) (v : RVal) (bv : BV) (t : ℚ) : GenM Unit := do
  .event t name .startRetrieval
  let c ← GenM.lift v.asChunk
  let r ← GenM.act (retrieveIn C name c bv t)
  .event (t + r.2) name .unknown
  if notRetrieved r.1 then
    .set (·.setState name .error)
  else do
    .event (t + r.2) name .cleared
    .act (fun w => w.onBuf name (fun b st => st.add C.P b.cls.kind r.1 (t + r.2) Option.none))
    .set (·.setState name .free)
  recordRetrieved C name c r.1
  .event (t + r.2) name (.retrieved r.1)

/-! ## Vision -/

/-- `updated.find(otherchunk, ...)` (productions.py:747-748). -/
def findIn (C : Cfg) (name : String) (c : Chunk) (bv : BV) (w : Mach) : Mach × Except PyErr (Option Chunk × Option Stim) :=
  match w.buf name, w.env with
  | some b, some env =>
    let r := visFind C.P C.pyInt w.reg c bv (w.extraTest name "attended") b.finst b.seen env.focus env.stimulus
    ({ w with reg := r.1 }, r.2)
  | _, _ => (w, .error .attribute)

/-- `updated.add(chunk, stim, time)` (vision.py:53-64). -/
def addLocation (C : Cfg) (name : String) (c : Chunk) (stim : Option Stim) (t : ℚ) (w : Mach) : Mach × Except PyErr Unit :=
  match w.onBuf name (fun b st => st.add C.P b.cls.kind (some c) t Option.none) with
  | (w1, .ok _) => (w1.upd name (fun b => { b with seen := visRemember b.finst b.seen stim }), .ok ())
  | (w1, .error e) => (w1, .error e)

/-- `retrieveorset` for a visual location (productions.py:743-754). -/
def genFindLocation (C : Cfg) (name : String) (v : RVal) (bv : BV) (t : ℚ) : GenM Unit := do
  .event t name .unknown
  let c ← GenM.lift v.asChunk
  let r ← GenM.act (findIn C name c bv)
  match r.1 with
  | some found =>
    if found.slots.isEmpty then .set (·.setState name .error)
    else do
      genClear C name .nothing t false
      .act (addLocation C name found r.2 t)
      .set (·.setState name .free)
  | Option.none => .set (·.setState name .error)
  .event t name (.encodedLoc r.1)

/-- `chunk_from_stimulus(stimulus, "visual", position=False)` (vision.py:374-415); `cmd` is the command that `shift` puts into its copy
of the stimulus (vision.py:338). Simplification: `externally_visible` does not list 'cmd'. -/
def visChunk (P : Py) (reg : Reg) (s : Stim) (cmd : Option VarVal) : Reg × Except PyErr Chunk :=
  let dict : List (String × SlotArg) := s.attrs.map (fun p => (p.1, SlotArg.text p.2))
  let dict := match cmd with
    | some x => aset "cmd" (SlotArg.vv x) dict
    | Option.none => dict
  match locChunk P reg s true with
  | (reg1, .error e) => (reg1, .error e)
  | (reg1, .ok loc) =>
    createChunk P.toPyEnv reg1 (s.visType.getD "_visual")
      (aset "value" (SlotArg.text (s.text.getD "")) (aset "screen_pos" (SlotArg.chunk loc) dict))

/-- `float(v.screen_x.values)` for the value of the slot `screen_pos` (vision.py:335): a missing or empty slot is an AttributeError,
which becomes an ACTRError; a value that is not a string is a TypeError, a string that is not a number a ValueError. -/
def coordinate (C : Cfg) (v : Val) (slot : String) : Except PyErr ℚ :=
  match v with
  | .chunk t sl => match slotValue ⟨t, sl⟩ slot with
    | .error _ => .error .actr
    | .ok (.str s) => match C.pyFloat s with
      | some q => .ok q
      | Option.none => .error .value
    | .ok _ => .error .type
  | _ => .error .actr

/-- The loop over the screen (vision.py:333-340): the last object at the position asked for. -/
def shiftTarget (C : Cfg) (mods : List (String × VarVal)) : Screen → Option Stim → Except PyErr (Option Stim)
  | [], acc => .ok acc
  | (_, s) :: r, acc =>
    match s.pos with
    | Option.none => .error .actr
    | some p => match alook "screen_pos" mods with
      | Option.none => .error .actr
      | some x => match coordinate C x.values "screen_x" with
        | .error e => .error e
        | .ok px => match coordinate C x.values "screen_y" with
          | .error e => .error e
          | .ok py =>
            if p = (px, py) then
              if (alook "cmd" mods).isSome then shiftTarget C mods r (some s) else .error .actr
            else shiftTarget C mods r acc

/-- `shift` (vision.py:319-359): the new chunk, the times for encoding, preparation and execution, and the landing site. If nothing
is at the position, `stim` is not bound. -/
def shiftIn (C : Cfg) (c : Chunk) (bv : BV) (w : Mach) : Mach × Except PyErr (Chunk × (ℚ × ℚ × ℚ) × (ℚ × ℚ)) :=
  match resolveAll C.P bv true (removeUnused C.P.H c) with
  | .error e => (w, .error e)
  | .ok mods =>
    match w.env.bind Env.stimulus with
    | Option.none => (w, .error .type)
    | some screen => match shiftTarget C mods screen Option.none with
      | .error e => (w, .error e)
      | .ok Option.none => (w, .error .unboundLocal)
      | .ok (some s) => match visChunk C.P w.reg s (alook "cmd" mods) with
        | (reg1, .error e) => ({ w with reg := reg1 }, .error e)
        | (reg1, .ok new) =>
          let p := s.pos.getD (0, 0)
          let site : ℚ × ℚ := ((truncQ p.1 : ℚ), (truncQ p.2 : ℚ))
          if C.emmaOn then
            ({ w with reg := reg1, tick := w.tick + 1 },
              (C.emma w.tick ((w.env.map Env.focus).getD (0, 0)) site s.visDelay).map (fun x => (new, x.1, x.2)))
          else ({ w with reg := reg1 }, .ok (new, ((85 : ℚ) / 1000, 0, (85 : ℚ) / 1000), site))

/-- `visualencode` (productions.py:709-719). -/
def genVisualencode (C : Cfg) (name : String) (c : Chunk) (t extra : ℚ) (site : ℚ × ℚ) : GenM Unit := do
  .set (·.setState name .busy)
  .set (fun w => w.upd name (fun b => { b with focus := site }))
  genClear C name .nothing (t + extra) false
  .act (fun w => w.onBuf name (fun b st => st.add C.P b.cls.kind (some c) (t + extra) Option.none))
  .set (·.setState name .free)
  .event (t + extra) name (.encoded c)

/-- `visualshift` (productions.py:834-860); it ends by yielding its continuation. -/
def genVisualshift (C : Cfg) (name : String) (v : RVal) (bv : BV) (t : ℚ) : GenM Unit := do
  let c ← GenM.lift v.asChunk
  let s ← GenM.act (shiftIn C c bv)
  .set (fun w => w.upd name (fun b => { b with preparation := .busy, processor := .busy, state := .busy }))
  .event t name .shiftStarted
  if s.2.1.1 ≤ s.2.1.2.1 then genVisualencode C name s.1 t s.2.1.1 s.2.2 else Pure.pure ()
  .event (t + s.2.1.2.1) name .shiftPrepared
  if s.2.1.2.1 < s.2.1.1 ∧ s.2.1.1 ≤ s.2.1.2.1 + s.2.1.2.2 then
    genVisualencode C name s.1 (t + s.2.1.2.1 - s.2.1.2.1) s.2.1.1 s.2.2
  else Pure.pure ()
  .yield (.cont (.visualContinue name s.1 bv (t + s.2.1.2.1) s.2.1 s.2.2))

/-- `visualcontinue` (productions.py:862-891). -/
def genVisualcontinue (C : Cfg) (name : String) (c : Chunk) (bv : BV) (t : ℚ) (times : ℚ × ℚ × ℚ) (site : ℚ × ℚ) : GenM Unit := do
  .set (fun w => w.upd name (fun b => { b with preparation := .free, execution := .busy }))
  let last ← GenM.get (fun w => ((w.buf name).map Buf.lastMvt).getD 0)
  let t' := (if t < last then last else t) + times.2.2
  .set (fun w => w.upd name (fun b => { b with lastMvt := t' }))
  .event t' name .unknown
  .set (fun w => ({ w with env := w.env.map (fun e => { e with focus := ((truncQ site.1 : ℚ), (truncQ site.2 : ℚ)) }) } : Mach).upd name
    (fun b => { b with focus := ((truncQ site.1 : ℚ), (truncQ site.2 : ℚ)) }))
  let f ← GenM.get (fun w => ((w.buf name).map Buf.focus).getD (0, 0))
  .event t' name (.shiftComplete f)
  if times.2.1 + times.2.2 < times.1 then do
    let s ← GenM.act (shiftIn C c bv)
    if times.1 = 0 then .throw .zeroDivision
    else genVisualencode C name c t' ((1 - (times.2.1 + times.2.2) / times.1) * s.2.1.1) site
  else Pure.pure ()
  .set (fun w => w.upd name (fun b => { b with processor := .free, execution := .free, state := .free, attend := true }))

/-- `retrieveorset` for a visual buffer (productions.py:755-766). The continuation is the last thing that is yielded to the
simulation, which does not come back for the None of line 761. -/
def genVisual (C : Cfg) (name : String) (v : RVal) (bv : BV) (t : ℚ) : GenM Unit := do
  let c ← GenM.lift v.asChunk
  let mods ← GenM.lift (resolveAll C.P bv true (removeUnused C.P.H c))
  match alook "cmd" mods with
  | Option.none => .throw .key
  | some x =>
    if !x.values.truthy || !(keyEq C.P.H (.str "None") x.values || keyEq C.P.H (.str "move_attention") x.values ||
        keyEq C.P.H (.str "clear") x.values || keyEq C.P.H .none x.values) then .throw .actr
    else if pyEq C.P.H x.values (.str "move_attention") then do
      genVisualshift C name v bv t
      .yield .nothing
    else if pyEq C.P.H x.values (.str "clear") then do
      .set (fun w => w.upd name (fun b => { b with attend := false, state := .free }))
      .event t name .stoppedAuto
    else Pure.pure ()

/-- `automatic_search` (productions.py:792-807) with `VisualLocation.automatic_search`. -/
def genAutoSearch (C : Cfg) (name : String) (stims : List Stim) (t : ℚ) : GenM Unit := do
  .set (·.setState name .busy)
  let r ← GenM.act (fun w =>
    if C.autoVisual then
      match w.buf name, w.env with
      | some b, some env =>
        let r := autoSearch C.P w.reg b.seen env.focus stims
        (({ w with reg := r.1 } : Mach), r.2)
      | _, _ => (w, .error .attribute)
    else (w, .ok Option.none))
  match r with
  | some (c, s) =>
    if c.slots.isEmpty then .event t name .unknown
    else do
      let full ← GenM.get (fun w => ((w.buf name).map (fun b => !b.data.isEmpty)).getD false)
      if full then
        .act (fun w => match w.onBuf name (fun _ st => st.modify C.P c BV.init) with
          | (w1, .ok _) => (w1.upd name (fun b => { b with seen := visRemember b.finst b.seen (some s) }), .ok ())
          | (w1, .error e) => (w1, .error e))
      else .act (addLocation C name c (some s) t)
      .event t name (.autoLoc c)
  | Option.none => .event t name .unknown

/-- The loop of `automatic_buffering` (productions.py:819-822): the last object near the focus whose text is not in the buffer yet. -/
def autoBufferLoop (C : Cfg) (data : List Chunk) (cf : ℚ × ℚ) : List Stim → Mach → Option (Chunk × ℚ) →
    Mach × Except PyErr (Option (Chunk × ℚ))
  | [], w, acc => (w, .ok acc)
  | s :: r, w, acc =>
    match s.pos with
    | Option.none => (w, .error .key)
    | some p =>
      if cf.1 - C.foveal < p.1 ∧ p.1 < cf.1 + C.foveal ∧ cf.2 - C.foveal < p.2 ∧ p.2 < cf.2 + C.foveal then
        match (match data with
          | [] => .ok true
          | c :: _ => match slotValue c "value" with
            | .error e => .error e
            | .ok v => match s.text with
              | Option.none => .error .key
              | some txt => .ok (!pyEq C.P.H v (.str txt)) : Except PyErr Bool) with
        | .error e => (w, .error e)
        | .ok false => autoBufferLoop C data cf r w acc
        | .ok true => match visChunk C.P w.reg s Option.none with
          | (reg1, .error e) => ({ w with reg := reg1 }, .error e)
          | (reg1, .ok c) =>
            autoBufferLoop C data cf r { w with reg := reg1, tick := w.tick + 1 } (some (c, C.autoDelay w.tick s))
      else autoBufferLoop C data cf r w acc

/-- `automatic_buffering` (productions.py:809-832). -/
def genAutoBuffer (C : Cfg) (name : String) (stims : List Stim) (t : ℚ) : GenM Unit := do
  .set (fun w => w.upd name (fun b => { b with state := .busy, autoattending := .busy }))
  let r ← GenM.act (fun w => match w.buf name with
    | some b => autoBufferLoop C b.data b.focus stims w Option.none
    | Option.none => (w, .error .attribute))
  let t' := t + (r.map Prod.snd).getD 0
  .event t' name .unknown
  .set (fun w => w.upd name (fun b => { b with state := .free, autoattending := .free }))
  match r with
  | some (c, _) =>
    if c.slots.isEmpty then Pure.pure ()
    else do
      .act (fun w => w.onBuf name (fun b st =>
        if b.data.isEmpty then st.add C.P b.cls.kind (some c) t' Option.none else st.modify C.P c BV.init))
      .event t' name (.autoObj c)
  | Option.none => Pure.pure ()

/-! ## Motor -/

/-- `motorbuffer.create(otherchunk, temp_actrvariables)` (productions.py:897): the chunk and its key. -/
def motorCreateIn (C : Cfg) (c : Chunk) (bv : BV) (w : Mach) : Mach × Except PyErr (Chunk × String) :=
  match motorCreate C.P C.upper w.reg c bv with
  | (reg1, .error e) => ({ w with reg := reg1 }, .error e)
  | (reg1, .ok new) => match slotValue new "key" with
    | .ok (.str k) => ({ w with reg := reg1 }, .ok (new, k))
    | _ => ({ w with reg := reg1 }, .error .attribute)

/-- The key pressed last, `last_key[0]`. -/
def Mach.lastKeyOf (w : Mach) (name : String) : Option String := (w.buf name).bind (fun b => b.lastKey.1)

/-- `motorset` (productions.py:893-926); it ends by yielding its continuation. -/
def genMotorset (C : Cfg) (name : String) (v : RVal) (bv : BV) (t : ℚ) : GenM Unit := do
  let c ← GenM.lift v.asChunk
  let m ← GenM.act (motorCreateIn C c bv)
  let prep ← GenM.get (fun w => prepTime w.motorPrepared (w.lastKeyOf name) m.2)
  .set (fun w => if w.lastKeyOf name = some m.2 ∨ w.motorPrepared then { w with motorPrepared := false } else w)
  .set (fun w => w.upd name (fun b => { b with state := .busy, preparation := .busy, processor := .busy }))
  .event t name (.command m.1)
  .event (t + prep) name .prepared
  .yield (.cont (.motorContinue name m.2 (t + prep) (timePresses m.2)))

/-- `motorcontinue` (productions.py:928-964). `env_interaction.discard(otherchunk.key)` has no effect: the set contains strings. -/
def genMotorcontinue (name : String) (key : String) (t : ℚ) (pr : ℚ × ℚ × ℚ × ℚ) : GenM Unit := do
  let last ← GenM.get (fun w => ((w.buf name).map (fun b => b.lastKey.2)).getD 0)
  let t1 := (if last ≠ 0 then last else t) + pr.2.1
  .set (fun w => w.upd name (fun b => { b with preparation := .free, execution := .busy,
                                               lastKey := (some key, t1 + pr.2.2.1 + pr.2.2.2) }))
  .event t1 name .initiated
  .set (fun w => w.upd name (fun b => { b with processor := .free }))
  .event (t1 + pr.2.2.1) name .unknown
  .set (fun w => { w with interaction := addStr w.interaction key })
  .event (t1 + pr.2.2.1) name (.pressed key)
  .event (t1 + pr.2.2.1 + pr.2.2.2) name .finished
  .set (fun w => w.upd name (fun b => { b with state := .free, execution := .free, lastKey := (b.lastKey.1, 0) }))

/-! ## Requests -/

/-- `retrieveorset` (productions.py:721-767). -/
noncomputable def genRetrieveorset (C : Cfg) (name : String) (v : RVal) (bv : BV) (t : ℚ) : GenM Unit := do
  .set (·.setState name .busy)
  let cls ← GenM.get (fun w => (w.buf name).map Buf.cls)
  match cls with
  | some .goal => genSetGoal C name v bv t
  | some .visualLocation => genFindLocation C name v bv t
  | some .visual => genVisual C name v bv t
  | some .motor => do
    genMotorset C name v bv t
    .yield .nothing
  | some .decmem => genRetrieve C name v bv t
  | Option.none => .throw .attribute

/-- Start a generator object. -/
noncomputable def Desc.run (C : Cfg) : Desc → GenM Unit
  | .retrieveorset n v bv t => genRetrieveorset C n v bv t
  | .modifyRequest n v bv t => genModifyRequest C n v bv t
  | .clear n _ t => genClear C n .nothing t true
  | .autoSearch n s t => genAutoSearch C n s t
  | .autoBuffer n s t => genAutoBuffer C n s t
  | .visualContinue n c bv t times site => genVisualcontinue C n c bv t times site
  | .motorContinue n k t pr => genMotorcontinue n k t pr

end Verif
