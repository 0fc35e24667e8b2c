import Verif.Lemmas.Orders
import Verif.Spec.Provenance
/-! # Where requests come from: the processes -/
namespace Verif
open Verif.Spec

/-! ## What is left alone -/

/-- What the cycle of the rules relies on while it waits: the values of the variables, and the rules. -/
structure Own (w w' : Mach) : Prop where
  bv : w'.bv = w.bv
  rules : ∀ n r, alook n w.rules = some r → ∃ r', alook n w'.rules = some r' ∧ r'.body = r.body

theorem own_refl (w : Mach) : Own w w := ⟨rfl, fun _ r h => ⟨r, h, rfl⟩⟩
theorem own_trans {a b c : Mach} (h1 : Own a b) (h2 : Own b c) : Own a c :=
  ⟨h2.bv.trans h1.bv, fun n r h => by
    obtain ⟨r1, g1, e1⟩ := h1.rules n r h
    obtain ⟨r2, g2, e2⟩ := h2.rules n r1 g1
    exact ⟨r2, g2, e2.trans e1⟩⟩
theorem own_same {w w' : Mach} (h1 : w'.bv = w.bv) (h2 : w'.rules = w.rules) : Own w w' := ⟨h1, fun n r h => ⟨r, by rw [h2]; exact h, rfl⟩⟩

/-- Neither this nor the list of processes is changed. -/
def Passive (w w' : Mach) : Prop := Own w w' ∧ w'.procs = w.procs

theorem passive_refl (w : Mach) : Passive w w := ⟨own_refl w, rfl⟩
theorem passive_trans (a b c : Mach) (h1 : Passive a b) (h2 : Passive b c) : Passive a c := ⟨own_trans h1.1 h2.1, h2.2.trans h1.2⟩
theorem passive_confined {n : String} {w w' : Mach} (h : Confined n w w') : Passive w w' := ⟨own_same h.bv h.rules, h.procs⟩

theorem passive_run (C : Cfg) (d : Desc) (w : Mach) : (d.run C w).Moves Passive w := moves_mono (fun _ _ h => passive_confined h) ((confined_run C d).moves w)

theorem passive_env (upper : String → String) (a : StimArg) (b : TrigArg) (c : EnvTimes) (t : ℚ) (w : Mach) :
    (envProcess (fun env (w : Mach) => { w with env := some env }) envOf upper a b c t w).Moves Passive w := by
  have hr : ∀ w : Mach, Passive w w := passive_refl
  have h : ∀ l i time w, (envLoop (fun env (w : Mach) => { w with env := some env }) envOf i time l w).Moves Passive w := by
    intro l
    induction l with
    | nil => intro i time w; exact hr w
    | cons s r ih =>
      intro i time w
      simp only [envLoop]
      split
      · exact hr w
      · split
        · exact hr w
        · exact ⟨⟨own_same rfl rfl, rfl⟩, fun w' => ih _ _ w'⟩
  unfold envProcess
  dsimp only
  split
  · exact hr w
  · exact ⟨⟨own_same rfl rfl, rfl⟩, fun w' => h _ _ _ w'⟩

/-! ## Processes that report nothing -/

/-- What a module can come up with: a chunk from memory, a key to press, a location or an object that it has seen. -/
inductive Haul where
  | chunk (c : Chunk)
  | key (k : String)
  | location (c : Chunk)
  | object (c : Chunk)

/-- The motor buffer `name` takes the request `v`, whose variables have these values, for a command to press the key. -/
def NamesKey (C : Cfg) (w : Mach) (name : String) (v : RVal) (bv : BV) (k : String) : Prop :=
  ∃ b ch reg' new, alook name w.bufs = some b ∧ b.cls = .motor ∧ v = .chunk ch ∧ motorCreate C.P C.upper w.reg ch bv = (reg', .ok new) ∧ slotValue new "key" = .ok (.str k)

/-- The search for what the request `v` says, on the screen as it is, finds the location. -/
def OnScreen (C : Cfg) (w : Mach) (name : String) (v : RVal) (bv : BV) (c : Chunk) : Prop :=
  ∃ b env ch reg' stim, alook name w.bufs = some b ∧ w.env = some env ∧ v = .chunk ch ∧
    visFind C.P C.pyInt w.reg ch bv (w.extraTest name "attended") b.finst b.seen env.focus env.stimulus = (reg', .ok (some c, stim))

/-- An object on the screen is at the place that the request `v` gives, and the chunk describes it. -/
def InPlace (C : Cfg) (w : Mach) (name : String) (v : RVal) (bv : BV) (c : Chunk) : Prop :=
  ∃ b env ch mods screen x s y p reg', alook name w.bufs = some b ∧ b.cls = .visual ∧ w.env = some env ∧ env.stimulus = some screen ∧ v = .chunk ch ∧
    resolveAll C.P bv true (removeUnused C.P.H ch) = .ok mods ∧ alook "screen_pos" mods = some y ∧ (x, s) ∈ screen ∧ s.pos = some p ∧
    coordinate C y.values "screen_x" = .ok p.1 ∧ coordinate C y.values "screen_y" = .ok p.2 ∧ visChunk C.P w.reg s (alook "cmd" mods) = (reg', .ok c)

/-- The module of the buffer `name` can come up with this if it is asked for `v`. -/
def Obtains (C : Cfg) (w : Mach) (name : String) (v : RVal) (bv : BV) : Haul → Prop
  | .chunk c => InMemory C w name v bv c
  | .key k => NamesKey C w name v bv k
  | .location c => OnScreen C w name v bv c
  | .object c => InPlace C w name v bv c

/-- What is reported. -/
def Act.told : Act → Option (Option Haul)
  | .retrieved r => some (r.map .chunk)
  | .pressed k => some (some (.key k))
  | .encodedLoc r => some (r.map .location)
  | .encoded c => some (some (.object c))
  | _ => Option.none

/-- What a process goes on with. -/
def Desc.kept : Desc → Option (String × Haul)
  | .motorContinue n k _ _ => some (n, .key k)
  | .visualContinue n c _ _ _ _ => some (n, .object c)
  | _ => Option.none

/-- Nothing is reported, and there is no process for an action of a rule. -/
def QuietY : YV → Prop
  | .ev e => e.act.told = Option.none
  | .cont d => ¬ ByRule d ∧ d.kept = Option.none
  | .procs => False
  | .nothing => True

theorem quietY_event (t : ℚ) (n : String) {a : Act} (h : a.told = Option.none) : QuietY (.ev ⟨round4 t, n, a⟩) := h
theorem quietY_nothing : QuietY .nothing := trivial

macro "emitq" : tactic => `(tactic| repeat' with_reducible first
  | exact emits_event (quietY_event _ _ rfl)
  | exact emits_yield quietY_nothing
  | exact emits_get | exact emits_lift | exact emits_throw | exact emits_pure | exact emits_pure' | exact emits_set | exact emits_act
  | assumption
  | refine emits_bind ?_ fun _ => ?_
  | split)

theorem quietY_clear (C : Cfg) (n : String) (v : RVal) (t : ℚ) (f : Bool) : Emits QuietY (genClear C n v t f) := by unfold genClear; emitq
theorem quietY_extraTest (n : String) (v : RVal) (t : ℚ) : Emits QuietY (genExtraTest n v t) := by unfold genExtraTest; emitq
theorem quietY_execute (C : Cfg) (n : String) (v : RVal) (t : ℚ) : Emits QuietY (genExecute C n v t) := by unfold genExecute; emitq
theorem quietY_modify (C : Cfg) (n : String) (v : RVal) (bv : BV) (t : ℚ) : Emits QuietY (genModify C n v bv t) := by
  unfold genModify recordModify; emitq
theorem quietY_modifyRequest (C : Cfg) (n : String) (v : RVal) (bv : BV) (t : ℚ) : Emits QuietY (genModifyRequest C n v bv t) := by
  unfold genModifyRequest recordModify; emitq
theorem quietY_overwrite (C : Cfg) (n : String) (v : RVal) (bv : BV) (t : ℚ) : Emits QuietY (genOverwrite C n v bv t) := by
  unfold genOverwrite recordSet; emitq
theorem quietY_setGoal (C : Cfg) (n : String) (v : RVal) (bv : BV) (t : ℚ) : Emits QuietY (genSetGoal C n v bv t) := by
  have h := quietY_clear C n v t false
  unfold genSetGoal recordSet; emitq
theorem quietY_autoSearch (C : Cfg) (n : String) (s : List Stim) (t : ℚ) : Emits QuietY (genAutoSearch C n s t) := by unfold genAutoSearch; emitq
theorem quietY_autoBuffer (C : Cfg) (n : String) (s : List Stim) (t : ℚ) : Emits QuietY (genAutoBuffer C n s t) := by unfold genAutoBuffer; emitq

theorem quietY_immediate (C : Cfg) (k : Key) (v : RVal) (bv : BV) (t : ℚ) : Emits QuietY (immediate C k v bv t) := by
  unfold immediate
  split_ifs
  · exact fun w => quietY_extraTest ..
  · exact fun w => quietY_execute ..
  · exact fun w => quietY_modify ..
  · exact fun w => quietY_overwrite ..
  · exact fun w => quietY_clear ..

theorem quietY_updateLoop (C : Cfg) (t : ℚ) : ∀ l temp, Emits QuietY (updateLoop C t l temp)
  | [], _ => emits_pure'
  | (k, v) :: r, temp => by
    have h := quietY_updateLoop C t r (temp.popVar k.name)
    have h2 := fun bv => quietY_immediate C k v bv t
    simp only [updateLoop]
    repeat' with_reducible first | exact h2 _ | (emitq; done) | refine emits_bind ?_ fun _ => ?_ | split

theorem quietY_rhs (C : Cfg) (n : String) (rule : CRule) (t : ℚ) : Emits QuietY (genRhs C n rule t) := by
  have h := fun l temp => quietY_updateLoop C t l temp
  unfold genRhs genUpdate
  repeat' with_reducible first | exact h _ _ | (emitq; done) | refine emits_bind ?_ fun _ => ?_ | split

/-! ## The processes of modules -/

/-- What can be found by the process. -/
def Found (C : Cfg) (w : Mach) (r : Option Haul) : Desc → Prop
  | .retrieveorset n v bv _ => ∀ c, r = some c → Obtains C w n v bv c
  | _ => False

/-- Only what was found is reported, or what the process goes on with; and only with what was found there are processes that go on. -/
def Says (d : Desc) (ph : Option (Option Haul)) : YV → Prop
  | .ev e => ∀ r, e.act.told = some r → (ph = some r ∧ ∃ v bv t, d = .retrieveorset e.proc v bv t) ∨ ∃ c, r = some c ∧ d.kept = some (e.proc, c)
  | .cont d' => ¬ ByRule d' ∧ ∀ n c, d'.kept = some (n, c) → ph = some (some c) ∧ ∃ v bv t, d = .retrieveorset n v bv t
  | _ => True

/-- The process finds something and reports what it has found; `w0` is the state in which it was resumed. -/
def Serves (C : Cfg) (d : Desc) : Option (Option Haul) → Mach → Out Mach YV Unit → Prop
  | ph, w0, .yield w1 y k => Passive w0 w1 ∧ ∃ ph', (ph' = ph ∨ ∃ r, ph' = some r ∧ Found C w0 r d) ∧ Says d ph' y ∧ ∀ w', Serves C d ph' w' (k w')
  | _, w0, .ret w1 _ => Passive w0 w1
  | _, w0, .raise w1 _ => Passive w0 w1

theorem says_quiet {d : Desc} {ph : Option (Option Haul)} {y : YV} (h : QuietY y) : Says d ph y := by
  cases y with
  | ev e => exact fun r hr => by rw [show e.act.told = Option.none from h] at hr; cases hr
  | cont d' => exact ⟨h.1, fun n c hc => by rw [h.2] at hc; cases hc⟩
  | procs => trivial
  | nothing => trivial

theorem serves_says {C : Cfg} {d : Desc} {ph : Option (Option Haul)} {o : Out Mach YV Unit} : ∀ {w : Mach}, o.Moves Passive w → o.Yields (Says d ph) → Serves C d ph w o := by
  induction o with
  | yield w1 y k ih => exact fun hm hy => ⟨hm.1, ph, .inl rfl, hy.1, fun w' => ih w' (hm.2 w') (hy.2 w')⟩
  | ret w1 a => exact fun hm _ => hm
  | raise w1 e => exact fun hm _ => hm

theorem serves_quiet {C : Cfg} {d : Desc} {ph : Option (Option Haul)} {o : Out Mach YV Unit} {w : Mach} (hm : o.Moves Passive w) (hy : o.Yields QuietY) : Serves C d ph w o :=
  serves_says hm (yields_mono (fun _ => says_quiet) hy)

/-- Something has been found. -/
theorem serves_got {C : Cfg} {d : Desc} {ph : Option (Option Haul)} {r : Option Haul} {o : Out Mach YV Unit} {w : Mach} (hf : Found C w r d) (hm : o.Moves Passive w) (hy : o.Yields (Says d (some r))) : Serves C d ph w o := by
  cases o with
  | yield w1 y k => exact ⟨hm.1, some r, .inr ⟨r, rfl, hf⟩, hy.1, fun w' => serves_says (hm.2 w') (hy.2 w')⟩
  | ret w1 a => exact hm
  | raise w1 e => exact hm

theorem serves_act {C : Cfg} {d : Desc} {ph : Option (Option Haul)} {A : Type} {f : Mach → Mach × Except PyErr A} {g : A → GenM Unit} {r : A → Option Haul} {w0 w : Mach}
    (hm : ((GenM.act f >>= g) w).Moves Passive w0) (hf : ∀ w' a, f w = (w', .ok a) → Found C w0 (r a) d) (hy : ∀ a, Emits (Says d (some (r a))) (g a)) : Serves C d ph w0 ((GenM.act f >>= g) w) := by
  rcases hr : f w with ⟨w2, e | a⟩
  · rw [genM_bind_apply, genM_act_error hr] at hm ⊢
    exact hm
  · rw [genM_bind_apply, genM_act_ok hr] at hm ⊢
    exact serves_got (hf w2 a hr) hm (hy a w2)

/-- Quiet parts of a process. -/
theorem emits_says {A : Type} {d : Desc} {ph : Option (Option Haul)} {g : GenM A} (h : Emits QuietY g) : Emits (Says d ph) g := fun w => yields_mono (fun _ => says_quiet) (h w)

macro "emits" : tactic => `(tactic| repeat' with_reducible first
  | exact emits_event (says_quiet (quietY_event _ _ rfl))
  | exact emits_yield (says_quiet quietY_nothing)
  | exact emits_get | exact emits_lift | exact emits_throw | exact emits_pure | exact emits_pure' | exact emits_set | exact emits_act
  | assumption
  | refine emits_bind ?_ fun _ => ?_
  | split)

theorem symLoop_found {H : PyHash} {req : Chunk} {now : ℚ} {skip : Chunk → Bool} : ∀ {l : List (Chunk × List ℚ)} {acc : Option Chunk} {c : Chunk},
    symLoop H req now skip l acc = .ok (some c) → acc = some c ∨ ((req.le H BV.init c).1 = true ∧ ∃ tr, (c, tr) ∈ l)
  | [], acc, c, h => by cases h; exact .inl rfl
  | (d, tr) :: r, acc, c, h => by
    have hmore : ∀ {acc'}, symLoop H req now skip r acc' = .ok (some c) → acc' = some c ∨ ((req.le H BV.init c).1 = true ∧ ∃ tr', (c, tr') ∈ (d, tr) :: r) := fun {acc'} h => by
      rcases symLoop_found h with h | ⟨h1, tr', h2⟩
      · exact .inl h
      · exact .inr ⟨h1, tr', .tail _ h2⟩
    simp only [symLoop] at h
    split at h
    · exact hmore h
    · split at h
      · rename_i hle
        cases tr with
        | nil => cases h
        | cons u tr =>
          rcases hmore h with h | h
          · split at h
            · cases h
              exact .inr ⟨hle, _, .head _⟩
            · exact .inl h
          · exact .inr h
      · exact hmore h

theorem better_found {thr : ℝ} {best : Best} {c : Chunk} {a : ℝ} {b : Chunk × ℝ} (h : better thr best c a = some b) : best = some b ∨ b.1 = c := by
  unfold better at h
  split at h
  · split at h
    · cases h; exact .inr rfl
    · exact .inl h
  · split at h
    · cases h; exact .inr rfl
    · exact .inl h

theorem subLoop_found {H : PyHash} {p : RParams} {req : Chunk} {now : ℚ} {skip : Chunk → Bool} {bufs : List (String × Option Chunk)} {draws : ℕ → ℝ} :
    ∀ {l : List (Chunk × List ℚ)} {k : ℕ} {dm dm' : DecMem} {best : Best} {b : Chunk × ℝ} {e : Option PyErr}, subLoop H p req now skip bufs draws k l dm best = (dm', some b, e) →
    best = some b ∨ ((p.partialMatching = false → (req.le H BV.init b.1).1 = true) ∧ ∃ tr, (b.1, tr) ∈ l)
  | [], k, dm, dm', best, b, e, h => by cases h; exact .inl rfl
  | (d, tr) :: r, k, dm, dm', best, b, e, h => by
    have hmore : ∀ {k dm best'}, subLoop H p req now skip bufs draws k r dm best' = (dm', some b, e) →
        best' = some b ∨ ((p.partialMatching = false → (req.le H BV.init b.1).1 = true) ∧ ∃ tr', (b.1, tr') ∈ (d, tr) :: r) := fun {k dm best'} h => by
      rcases subLoop_found h with h | ⟨h1, tr', h2⟩
      · exact .inl h
      · exact .inr ⟨h1, tr', .tail _ h2⟩
    simp only [subLoop] at h
    split at h
    · exact hmore h
    · split at h
      · cases h; exact .inl rfl
      · exact hmore h
      · rename_i dm1 a hc
        rcases hmore h with h | h
        · rcases better_found h with h | h
          · exact .inl h
          · refine .inr ⟨fun hpm => ?_, tr, by rw [h]; exact .head _⟩
            rw [h]
            unfold candidateActivation pmScore at hc
            rw [hpm] at hc
            by_contra hle
            simp [hle] at hc
        · exact .inr h

/-- What `retrieve` returns was in the memory. -/
theorem retrieveIn_found {C : Cfg} {n : String} {ch : Chunk} {bv : BV} {t : ℚ} {w w' : Mach} {c : Chunk} {x : ℚ} (h : retrieveIn C n ch bv t w = (w', .ok (some c, x))) :
    InMemory C w n (.chunk ch) bv c := by
  unfold retrieveIn at h
  split at h
  · cases h
  · rename_i b hb
    split at h
    · split at h <;> cases h
    · rename_i i m hm
      obtain ⟨j, hj, hj'⟩ := Option.bind_eq_some_iff.1 hm
      obtain ⟨m', hm', he⟩ := Option.map_eq_some_iff.1 hj'
      cases he
      have h2 := congrArg Prod.snd h
      dsimp only at h2
      unfold RBuf.retrieve at h2
      dsimp only at h2
      split at h2
      · cases h2
      · rename_i reg' req hreq
        refine ⟨b, i, m, ?_⟩
        split at h2
        · rename_i hsub
          split at h2
          · cases h2
          · rename_i dm1 best hl
            cases best with
            | none => cases h2
            | some bb =>
              have hc : bb.1 = c := by
                have := congrArg (fun r => Except.toOption r |>.bind Prod.fst) h2
                exact Option.some.inj this
              rcases subLoop_found hl with h3 | ⟨h3, tr, h4⟩
              · cases h3
              · rw [hc] at h3 h4
                exact ⟨tr, ch, reg', req, hb, hj, hm', h4, rfl, hreq, fun ho => h3 (ho.resolve_left (by rw [hsub]; simp))⟩
        · split at h2
          · cases h2
          · rename_i res hl
            have hc : res = some c := by
              have := congrArg (fun r => Except.toOption r |>.bind Prod.fst) h2
              exact this
            rw [hc] at hl
            rcases symLoop_found hl with h3 | ⟨h3, tr, h4⟩
            · cases h3
            · exact ⟨tr, ch, reg', req, hb, hj, hm', h4, rfl, hreq, fun _ => h3⟩

theorem serves_retrieve (C : Cfg) (n : String) (v : RVal) (bv : BV) (t : ℚ) {w0 w : Mach} (hm : ((genRetrieve C n v bv t) w).Moves Passive w0) :
    Serves C (.retrieveorset n v bv t) Option.none w0 (genRetrieve C n v bv t w) := by
  refine ⟨hm.1, Option.none, .inl rfl, says_quiet (quietY_event _ _ rfl), fun w1 => ?_⟩
  have hm1 := hm.2 w1
  cases v with
  | chunk ch =>
    change Out.Moves Passive w1 ((GenM.act (retrieveIn C n ch bv t) >>= _) w1) at hm1
    show Serves C _ _ w1 ((GenM.act (retrieveIn C n ch bv t) >>= _) w1)
    refine serves_act (r := fun a => a.1.map .chunk) hm1 (fun w' a ha c hc => ?_) fun a => ?_
    · obtain ⟨x, hx, rfl⟩ := Option.map_eq_some_iff.1 hc
      obtain ⟨a1, a2⟩ := a
      cases hx
      exact retrieveIn_found ha
    · have hlast : Emits (Says (.retrieveorset n (.chunk ch) bv t) (some (a.1.map .chunk))) (GenM.event (t + a.2) n (.retrieved a.1)) :=
        emits_event fun r hr => .inl ⟨hr, _, _, _, rfl⟩
      unfold recordRetrieved
      emits
  | tests d => exact passive_refl w1
  | cmds l => exact passive_refl w1
  | nothing => exact passive_refl w1

theorem serves_findLocation (C : Cfg) (n : String) (v : RVal) (bv : BV) (t : ℚ) {w0 w : Mach} (hm : ((genFindLocation C n v bv t) w).Moves Passive w0) :
    Serves C (.retrieveorset n v bv t) Option.none w0 (genFindLocation C n v bv t w) := by
  refine ⟨hm.1, Option.none, .inl rfl, says_quiet (quietY_event _ _ rfl), fun w1 => ?_⟩
  have hm1 := hm.2 w1
  cases v with
  | chunk ch =>
    change Out.Moves Passive w1 ((GenM.act (findIn C n ch bv) >>= _) w1) at hm1
    show Serves C _ _ w1 ((GenM.act (findIn C n ch bv) >>= _) w1)
    refine serves_act (r := fun a => a.1.map .location) hm1 (fun w' a ha c hc => ?_) fun a => ?_
    · obtain ⟨x, hx, rfl⟩ := Option.map_eq_some_iff.1 hc
      unfold findIn at ha
      split at ha
      · rename_i b env hb he
        obtain ⟨a1, a2⟩ := a
        cases hx
        have h2 := congrArg Prod.snd ha
        exact ⟨b, env, ch, _, a2, hb, he, rfl, Prod.ext rfl h2⟩
      · cases ha
    · have hlast : Emits (Says (.retrieveorset n (.chunk ch) bv t) (some (a.1.map .location))) (GenM.event t n (.encodedLoc a.1)) :=
        emits_event fun r hr => .inl ⟨hr, _, _, _, rfl⟩
      have hcl := emits_says (d := .retrieveorset n (.chunk ch) bv t) (ph := some (a.1.map .location)) (quietY_clear C n .nothing t false)
      emits
  | tests d => exact passive_refl w1
  | cmds l => exact passive_refl w1
  | nothing => exact passive_refl w1

theorem says_encode {d : Desc} {ph : Option (Option Haul)} (C : Cfg) (n : String) (c : Chunk) (t x : ℚ) (s : ℚ × ℚ)
    (h : (ph = some (some (.object c)) ∧ ∃ v bv t, d = .retrieveorset n v bv t) ∨ d.kept = some (n, .object c)) : Emits (Says d ph) (genVisualencode C n c t x s) := by
  have hlast : Emits (Says d ph) (GenM.event (t + x) n (.encoded c)) := emits_event fun r hr => by
    cases hr
    exact h.imp id fun h => ⟨_, rfl, h⟩
  have hcl := emits_says (d := d) (ph := ph) (quietY_clear C n .nothing (t + x) false)
  unfold genVisualencode
  emits

theorem shiftTarget_mem {C : Cfg} {mods : List (String × VarVal)} : ∀ {sc : Screen} {acc : Option Stim} {s : Stim}, shiftTarget C mods sc acc = .ok (some s) →
    acc = some s ∨ ∃ x y p, (x, s) ∈ sc ∧ alook "screen_pos" mods = some y ∧ s.pos = some p ∧ coordinate C y.values "screen_x" = .ok p.1 ∧ coordinate C y.values "screen_y" = .ok p.2
  | [], acc, s, h => by cases h; exact .inl rfl
  | (x0, s0) :: r, acc, s, h => by
    have hmore : ∀ {acc'}, shiftTarget C mods r acc' = .ok (some s) → acc' = some s ∨
        ∃ x y p, (x, s) ∈ (x0, s0) :: r ∧ alook "screen_pos" mods = some y ∧ s.pos = some p ∧ coordinate C y.values "screen_x" = .ok p.1 ∧ coordinate C y.values "screen_y" = .ok p.2 := fun {acc'} h => by
      rcases shiftTarget_mem h with h | ⟨x, y, p, h1, h2⟩
      · exact .inl h
      · exact .inr ⟨x, y, p, .tail _ h1, h2⟩
    simp only [shiftTarget] at h
    split at h
    · cases h
    · rename_i p hp
      split at h
      · cases h
      · rename_i y hy
        split at h
        · cases h
        · rename_i px hpx
          split at h
          · cases h
          · rename_i py hpy
            split at h
            · rename_i he
              split at h
              · rcases hmore h with h | h
                · cases h
                  subst he
                  exact .inr ⟨x0, y, _, .head _, hy, hp, hpx, hpy⟩
                · exact .inr h
              · cases h
            · exact hmore h

theorem shiftIn_found {C : Cfg} {n : String} {ch : Chunk} {bv : BV} {w0 w w' : Mach} {b : Buf} {a : Chunk × (ℚ × ℚ × ℚ) × (ℚ × ℚ)} (hb : w0.buf n = some b) (hc : b.cls = .visual) (hr : w.reg = w0.reg) (he : w.env = w0.env)
    (h : shiftIn C ch bv w = (w', .ok a)) : InPlace C w0 n (.chunk ch) bv a.1 := by
  unfold shiftIn at h
  split at h
  · cases h
  · rename_i mods hm
    split at h
    · cases h
    · rename_i screen hs
      obtain ⟨env, henv, hst⟩ := Option.bind_eq_some_iff.1 hs
      split at h
      · cases h
      · cases h
      · rename_i s ht
        rcases shiftTarget_mem ht with ht | ⟨x, y, p, h1, h2, h3, h4, h5⟩
        · cases ht
        split at h
        · cases h
        · rename_i reg1 new hnew
          have hn : new = a.1 := by
            dsimp only at h
            split at h
            · have h6 := congrArg Prod.snd h
              dsimp only at h6
              rcases hem : C.emma w.tick ((w.env.map Env.focus).getD (0, 0)) ((truncQ (s.pos.getD (0, 0)).1 : ℚ), (truncQ (s.pos.getD (0, 0)).2 : ℚ)) s.visDelay with e | q
              · rw [hem] at h6; cases h6
              · rw [hem] at h6; cases h6; rfl
            · cases h; rfl
          rw [hn, hr] at hnew
          exact ⟨b, env, ch, mods, screen, x, s, y, p, reg1, hb, hc, he ▸ henv, hst, rfl, hm, h2, h1, h3, h4, h5, hnew⟩

theorem genM_act_assoc {A B D : Type} {f : Mach → Mach × Except PyErr A} {h : A → GenM B} {g : B → GenM D} {w : Mach} :
    ((GenM.act f >>= h) >>= g) w = (GenM.act f >>= fun a => h a >>= g) w := by
  rw [genM_bind_apply, genM_bind_apply, genM_bind_apply]
  rcases hr : f w with ⟨w2, e | a⟩
  · rw [genM_act_error hr]; rfl
  · rw [genM_act_ok hr]; rfl

theorem serves_visualshift {C : Cfg} {n : String} {v : RVal} {bv : BV} {t : ℚ} {w0 w : Mach} {b : Buf} (hb : w0.buf n = some b) (hc : b.cls = .visual) (hr : w.reg = w0.reg) (he : w.env = w0.env)
    {g : Unit → GenM Unit} (hg : ∀ u, Emits QuietY (g u)) (hm : ((genVisualshift C n v bv t >>= g) w).Moves Passive w0) :
    Serves C (.retrieveorset n v bv t) Option.none w0 ((genVisualshift C n v bv t >>= g) w) := by
  cases v with
  | chunk ch =>
    have heq : genVisualshift C n (.chunk ch) bv t = (GenM.act (shiftIn C ch bv) >>= _) := rfl
    rw [heq, genM_act_assoc] at hm ⊢
    refine serves_act (r := fun a => some (.object a.1)) hm (fun w' a ha c hc' => ?_) fun a => ?_
    · cases hc'
      exact shiftIn_found hb hc hr he ha
    · have h2 : Emits (Says (.retrieveorset n (.chunk ch) bv t) (some (some (.object a.1)))) (GenM.yield (.cont (.visualContinue n a.1 bv (t + a.2.1.2.1) a.2.1 a.2.2))) :=
        emits_yield ⟨id, fun m c hc => by cases hc; exact ⟨rfl, _, _, _, rfl⟩⟩
      refine emits_bind ?_ fun u => emits_says (hg u)
      repeat' with_reducible first | exact says_encode C n a.1 _ _ _ (.inl ⟨rfl, _, _, _, rfl⟩) | (emits; done) | refine emits_bind ?_ fun _ => ?_ | split
  | tests d => exact hm
  | cmds l => exact hm
  | nothing => exact hm

theorem serves_visual {C : Cfg} {n : String} {v : RVal} {bv : BV} {t : ℚ} {w0 w : Mach} {b : Buf} (hb : w0.buf n = some b) (hc : b.cls = .visual) (hr : w.reg = w0.reg) (he : w.env = w0.env)
    (hm : ((genVisual C n v bv t) w).Moves Passive w0) : Serves C (.retrieveorset n v bv t) Option.none w0 (genVisual C n v bv t w) := by
  cases v with
  | chunk ch =>
    rcases hmods : resolveAll C.P bv true (removeUnused C.P.H ch) with e | mods
    · have heq : genVisual C n (.chunk ch) bv t w = .raise w e := by
        show (GenM.lift (resolveAll C.P bv true (removeUnused C.P.H ch)) >>= _) w = _
        rw [hmods]; rfl
      rw [heq] at hm ⊢
      exact hm
    · have heq : genVisual C n (.chunk ch) bv t w = (match alook "cmd" mods with
          | Option.none => GenM.throw .key
          | some x =>
            if !x.values.truthy || !(keyEq C.P.H (.str "None") x.values || keyEq C.P.H (.str "move_attention") x.values ||
                keyEq C.P.H (.str "clear") x.values || keyEq C.P.H .none x.values) then GenM.throw .actr
            else if pyEq C.P.H x.values (.str "move_attention") then do
              genVisualshift C n (.chunk ch) bv t
              .yield .nothing
            else if pyEq C.P.H x.values (.str "clear") then do
              .set (fun w => w.upd n (fun b => { b with attend := false, state := .free }))
              .event t n .stoppedAuto
            else Pure.pure () : GenM Unit) w := by
        show (GenM.lift (resolveAll C.P bv true (removeUnused C.P.H ch)) >>= _) w = _
        rw [hmods]; rfl
      rw [heq] at hm ⊢
      generalize alook "cmd" mods = o at hm ⊢
      cases o with
      | none => exact hm
      | some x =>
        dsimp only at hm ⊢
        split at hm
        · rename_i h; rw [if_pos h]; exact hm
        · rename_i h; rw [if_neg h]
          split at hm
          · rename_i h; rw [if_pos h]; exact serves_visualshift hb hc hr he (fun _ => emits_yield quietY_nothing) hm
          · rename_i h; rw [if_neg h]
            refine serves_quiet hm ?_
            refine (?_ : Emits QuietY _) w
            emitq
  | tests d => exact hm
  | cmds l => exact hm
  | nothing => exact hm

theorem serves_motorset {C : Cfg} {n : String} {v : RVal} {bv : BV} {t : ℚ} {w0 w : Mach} {b : Buf} (hb : w0.buf n = some b) (hc : b.cls = .motor) (hr : w.reg = w0.reg)
    {g : Unit → GenM Unit} (hg : ∀ u, Emits QuietY (g u)) (hm : ((genMotorset C n v bv t >>= g) w).Moves Passive w0) :
    Serves C (.retrieveorset n v bv t) Option.none w0 ((genMotorset C n v bv t >>= g) w) := by
  cases v with
  | chunk ch =>
    have heq : genMotorset C n (.chunk ch) bv t = (GenM.act (motorCreateIn C ch bv) >>= _) := rfl
    rw [heq, genM_act_assoc] at hm ⊢
    refine serves_act (r := fun a => some (.key a.2)) hm (fun w' a ha c hc' => ?_) fun a => ?_
    · cases hc'
      unfold motorCreateIn at ha
      split at ha
      · cases ha
      · rename_i reg1 new hnew
        split at ha
        · rename_i k hk
          cases ha
          exact ⟨b, ch, reg1, _, hb, hc, rfl, hr ▸ hnew, hk⟩
        · cases ha
    · have h2 : ∀ q, Emits (Says (.retrieveorset n (.chunk ch) bv t) (some (some (.key a.2)))) (GenM.yield (.cont (.motorContinue n a.2 q (timePresses a.2)))) := fun q =>
        emits_yield ⟨id, fun m c hc => by cases hc; exact ⟨rfl, _, _, _, rfl⟩⟩
      refine emits_bind ?_ fun u => emits_says (hg u)
      repeat' with_reducible first | exact h2 _ | (emits; done) | refine emits_bind ?_ fun _ => ?_ | split
  | tests d => exact hm
  | cmds l => exact hm
  | nothing => exact hm

theorem says_visualcontinue (C : Cfg) (n : String) (c : Chunk) (bv : BV) (t : ℚ) (ts : ℚ × ℚ × ℚ) (s : ℚ × ℚ) :
    Emits (Says (.visualContinue n c bv t ts s) Option.none) (genVisualcontinue C n c bv t ts s) := by
  unfold genVisualcontinue
  repeat' with_reducible first | exact says_encode C n c _ _ _ (.inr rfl) | (emits; done) | refine emits_bind ?_ fun _ => ?_ | split

theorem says_motorcontinue (n : String) (k : String) (t : ℚ) (pr : ℚ × ℚ × ℚ × ℚ) : Emits (Says (.motorContinue n k t pr) Option.none) (genMotorcontinue n k t pr) := by
  have h : ∀ q, Emits (Says (.motorContinue n k t pr) Option.none) (GenM.event q n (.pressed k)) := fun q => emits_event fun r hr => by
    cases hr
    exact .inr ⟨_, rfl, rfl⟩
  unfold genMotorcontinue
  repeat' with_reducible first | exact h _ | (emits; done) | refine emits_bind ?_ fun _ => ?_ | split

/-- All processes of modules. -/
theorem serves_run (C : Cfg) (d : Desc) (w : Mach) : Serves C d Option.none w (d.run C w) := by
  have hm := passive_run C d w
  cases d with
  | retrieveorset n v bv t =>
    have hq : ∀ {g : GenM Unit}, Emits QuietY g → (g (w.setState n .busy)).Moves Passive w → Serves C (.retrieveorset n v bv t) Option.none w (g (w.setState n .busy)) :=
      fun h h' => serves_quiet h' (h _)
    change Out.Moves Passive w ((GenM.set (·.setState n .busy) >>= fun _ => GenM.get (fun w => (w.buf n).map Buf.cls) >>= _) w) at hm
    show Serves C _ _ w ((GenM.set (·.setState n .busy) >>= fun _ => GenM.get (fun w => (w.buf n).map Buf.cls) >>= _) w)
    simp only [genM_bind_apply, genM_set_apply, out_bind_ret, genM_get_apply] at hm ⊢
    have hcls : Option.map Buf.cls ((w.setState n Status.busy).buf n) = (w.buf n).map Buf.cls := by rw [buf_setState_self, Option.map_map]; rfl
    have hreg : (w.setState n .busy).reg = w.reg := by unfold Mach.setState Mach.upd; split <;> rfl
    have henv : (w.setState n .busy).env = w.env := by unfold Mach.setState Mach.upd; split <;> rfl
    rw [hcls] at hm ⊢
    rcases hb : w.buf n with _ | b
    · rw [hb] at hm
      exact hm
    · rw [hb] at hm
      dsimp only [Option.map_some] at hm ⊢
      cases hc : b.cls with
      | goal => rw [hc] at hm; exact hq (quietY_setGoal C n v bv t) hm
      | visualLocation => rw [hc] at hm; exact serves_findLocation C n v bv t hm
      | visual => rw [hc] at hm; exact serves_visual hb hc hreg henv hm
      | motor => rw [hc] at hm; exact serves_motorset hb hc hreg (fun _ => emits_yield quietY_nothing) hm
      | decmem => rw [hc] at hm; exact serves_retrieve C n v bv t hm
  | modifyRequest n v bv t => exact serves_quiet hm (quietY_modifyRequest C n v bv t w)
  | clear n bv t => exact serves_quiet hm (quietY_clear C n .nothing t true w)
  | autoSearch n s t => exact serves_quiet hm (quietY_autoSearch C n s t w)
  | autoBuffer n s t => exact serves_quiet hm (quietY_autoBuffer C n s t w)
  | visualContinue n c bv t ts s => exact serves_says hm (says_visualcontinue C n c bv t ts s w)
  | motorContinue n k t pr => exact serves_says hm (says_motorcontinue n k t pr w)

/-! ## The process of the rules -/

/-- How far the cycle is: no rule has been tested, the rule can fire, its firing is announced. -/
inductive Ask where
  | none
  | tested (f : Firing)
  | fired (f : Firing)

/-- How it goes on; `w0` is the state in which the process was resumed, `y` what it yields next. -/
def Ask.next (C : Cfg) (w0 : Mach) (y : YV) (ph ph' : Ask) : Prop :=
  ph' = ph ∨ (ph = .none ∧ ∃ f, ph' = .tested f ∧ CanFire C w0 f) ∨
    ∃ f, ph' = .fired f ∧ (ph = .tested f ∨ (ph = .none ∧ CanFire C w0 f)) ∧ y = .ev ⟨round4 f.time, procName, .fired f.name⟩

/-- Only requests of the rule that fired are added. -/
def Adds (ph : Ask) (w w' : Mach) : Prop := ∀ n i d, .gen n i d ∈ w'.procs → .gen n i d ∈ w.procs ∨ ((ByRule d → ∃ f, ph = .fired f ∧ AsksFor f n d) ∧ d.kept = Option.none)

/-- Nothing is reported, and there is no process. -/
def MuteY : YV → Prop
  | .ev e => e.act.told = Option.none
  | .cont d => ¬ ByRule d ∧ d.kept = Option.none
  | _ => True

theorem muteY_quiet {y : YV} (h : QuietY y) : MuteY y := by cases y <;> first | exact h | trivial

/-- A cycle of the rules. -/
def Fires (C : Cfg) : Ask → Mach → Out Mach YV Unit → Prop
  | ph, w0, .yield w1 y k => Adds ph w0 w1 ∧ MuteY y ∧ ∃ ph', ph.next C w0 y ph' ∧ ∀ w', Own w1 w' → Fires C ph' w' (k w')
  | ph, w0, .ret w1 _ => Adds ph w0 w1
  | ph, w0, .raise w1 _ => Adds ph w0 w1

theorem adds_same {ph : Ask} {w w' : Mach} (h : w'.procs = w.procs) : Adds ph w w' := fun n i d hm => .inl (h ▸ hm)

/-- What the actions of the rule do. -/
def Loads (f : Firing) (w w' : Mach) : Prop := w.bv = f.bv → w'.bv = f.bv ∧ Adds (.fired f) w w'

theorem loads_refl (f : Firing) (w : Mach) : Loads f w w := fun h => ⟨h, adds_same rfl⟩
theorem loads_trans {f : Firing} (a b c : Mach) (h1 : Loads f a b) (h2 : Loads f b c) : Loads f a c := fun h => by
  obtain ⟨e1, a1⟩ := h1 h
  obtain ⟨e2, a2⟩ := h2 e1
  exact ⟨e2, fun n i d hm => (a2 n i d hm).elim (a1 n i d) .inr⟩
theorem loads_same {f : Firing} {w w' : Mach} (h1 : w'.bv = w.bv) (h2 : w'.procs = w.procs) : Loads f w w' := fun h => ⟨h1.trans h, adds_same h2⟩
theorem loads_confined {f : Firing} {n : String} {w w' : Mach} (h : Confined n w w') : Loads f w w' := loads_same h.bv h.procs

theorem loads_immediate (C : Cfg) (f : Firing) (k : Key) (v : RVal) (bv : BV) (t : ℚ) (w : Mach) : (immediate C k v bv t w).Moves (Loads f) w :=
  moves_mono (fun _ _ h => loads_confined h) ((confined_immediate C k v bv t).moves w)

theorem loads_queue {f : Firing} {k : Key} {v : RVal} {rhs : List (Key × RVal)} (hr : f.body.rhs = .ok rhs) (hm : (k, v) ∈ rhs) (hk : interruptible k.code = true) (w : Mach) :
    Loads f w (w.queue k.name (queuedDesc k v w.bv f.time)) := fun h => by
  refine ⟨h, fun n i d hd => ?_⟩
  rcases List.mem_append.1 hd with hd | hd
  · exact .inl hd
  · right
    rw [List.mem_singleton] at hd
    injection hd with h1 h2 h3
    subst h1 h3
    refine ⟨fun _ => ⟨f, rfl, rhs, v, hr, ?_⟩, by unfold queuedDesc; split <;> rfl⟩
    obtain ⟨c, n⟩ := k
    unfold queuedDesc
    by_cases hc : c = '+'
    · subst hc
      left
      exact ⟨hm, by rw [if_pos rfl, h]⟩
    · right
      have hs : c = '*' := by
        unfold interruptible at hk
        simpa [hc] using hk
      subst hs
      exact ⟨hm, by rw [if_neg (show ¬ (('*' : Char) = '+') by decide), h]⟩

theorem loads_updateLoop (C : Cfg) {f : Firing} {rhs : List (Key × RVal)} (hr : f.body.rhs = .ok rhs) : ∀ (l : List (Key × RVal)) (temp : BV), (∀ x ∈ l, x ∈ rhs) → ∀ w, (updateLoop C f.time l temp w).Moves (Loads f) w
  | [], temp, _, w => loads_refl f w
  | (k, v) :: r, temp, hl, w => by
    have ih := loads_updateLoop C hr r (temp.popVar k.name) fun x hx => hl x (.tail _ hx)
    have hstate : Loads f w (w.setState k.name .busy) := loads_confined confined_setState
    simp only [updateLoop]
    refine moves_bind loads_trans (moves_act (R := Loads f) ?_) fun _ w => ?_
    · split <;> exact loads_refl f w
    · have hbusy : ∀ w : Mach, Loads f w (w.setState k.name .busy) := fun w => loads_confined confined_setState
      have hbv : (w.setState k.name .busy).bv = w.bv := (confined_setState (n := k.name) (w := w) (s := .busy)).bv
      simp only [genM_bind_apply, genM_get_apply, out_bind_ret, genM_set_apply]
      refine moves_trans loads_trans (hbusy w) ?_
      split
      · rename_i hk
        refine moves_trans loads_trans ?_ (ih _)
        have := loads_queue hr (hl _ (.head _)) hk (w.setState k.name .busy)
        rwa [hbv] at this
      · exact moves_bind loads_trans (loads_immediate C f k v _ f.time _) fun _ w => ih w

theorem mem_sortRhs {rhs l : List (Key × RVal)} (h : sortRhs rhs = .ok l) : ∀ x ∈ l, x ∈ rhs := fun x hx => by
  unfold sortRhs at h
  split at h
  · cases h
    obtain ⟨r, _, hr⟩ := List.mem_flatMap.1 hx
    exact (List.mem_filter.1 hr).1
  · cases h

theorem loads_harvest {f : Firing} (t : ℚ) : ∀ (l : List String) (w : Mach), Loads f w (harvestAll t l w)
  | [], w => loads_refl f w
  | n :: r, w => by
    refine loads_trans w (match w.buf n with | some _ => w.queue n (.clear n w.bv t) | Option.none => w) _ ?_ (loads_harvest t r _)
    split
    · refine fun h => ⟨h, fun m i d hd => ?_⟩
      rcases List.mem_append.1 hd with hd | hd
      · exact .inl hd
      · right
        rw [List.mem_singleton] at hd
        injection hd with h1 h2 h3
        subst h3
        exact ⟨False.elim, rfl⟩
    · exact loads_refl f w

theorem loads_rhs (C : Cfg) {f : Firing} {rule : CRule} (hb : rule.body = f.body) (n : String) (w : Mach) : (genRhs C n rule f.time w).Moves (Loads f) w := by
  unfold genRhs
  rcases hr : rule.body.rhs with e | rhs
  · exact loads_refl f w
  · simp only [genM_bind_apply, genM_lift_ok, out_bind_ret]
    refine moves_bind loads_trans ?_ fun _ w => ?_
    · unfold genUpdate
      simp only [genM_bind_apply, genM_get_apply, out_bind_ret]
      rcases hs : sortRhs rhs with e | l
      · exact loads_refl f w
      · simp only [genM_lift_ok, out_bind_ret]
        refine moves_bind loads_trans (loads_updateLoop C (hb ▸ hr) l _ (mem_sortRhs hs) w) fun left w => ?_
        show Loads f w _
        split
        · exact loads_harvest _ _ _
        · exact loads_refl f w
    · show Loads f w _
      dsimp only
      split
      · split
        · exact loads_same rfl rfl
        · exact loads_same rfl rfl
      · exact loads_same rfl rfl

/-- The actions of the rule. -/
theorem fires_loads {C : Cfg} {f : Firing} {o : Out Mach YV Unit} : ∀ {w : Mach}, w.bv = f.bv → o.Moves (Loads f) w → o.Yields MuteY → Fires C (.fired f) w o := by
  induction o with
  | yield w1 y k ih => exact fun h hm hy => ⟨(hm.1 h).2, hy.1, _, .inl rfl, fun w' ho => ih w' (ho.bv.trans (hm.1 h).1) (hm.2 w') (hy.2 w')⟩
  | ret w1 a => exact fun h hm _ => (hm h).2
  | raise w1 e => exact fun h hm _ => (hm h).2

theorem compileIn_rest (C : Cfg) (w : Mach) : (compileIn C w).1.bv = w.bv ∧ (compileIn C w).1.procs = w.procs ∧ (compileIn C w).1.bufs = w.bufs := by
  unfold compileIn
  split
  · dsimp only
    split <;> exact ⟨rfl, rfl, rfl⟩
  · exact ⟨rfl, rfl, rfl⟩

theorem rewardStep_rest (C : Cfg) (n : String) (t : ℚ) (w : Mach) : (rewardStep C n t w).bv = w.bv ∧ (rewardStep C n t w).procs = w.procs := by
  unfold rewardStep
  split
  · split <;> exact ⟨rfl, rfl⟩
  · exact ⟨rfl, rfl⟩

/-- From the firing of the rule on. -/
theorem fires_fire (C : Cfg) {f : Firing} {rule : CRule} (hb : rule.body = f.body) {w0 w : Mach} (hc : CanFire C w0 f) (hv : w.bv = f.bv) (hp : w.procs = w0.procs) :
    Fires C .none w0 ((genFire C f.name rule f.time >>= fun _ => GenM.yield .procs) w) := by
  have hacts : ∀ w', w'.bv = f.bv → Fires C (.fired f) w' ((genRhs C f.name rule f.time >>= fun _ => GenM.yield .procs) w') := fun w' h =>
    fires_loads h (moves_bind loads_trans (loads_rhs C hb f.name w') fun _ w => moves_yield (loads_refl f) .procs w)
      (yields_bind (yields_mono (fun _ => muteY_quiet) (quietY_rhs C f.name rule f.time w')) fun _ w => ⟨trivial, fun _ => trivial⟩)
  have hfire : ∀ (ph : Ask) (w0' w' : Mach), (ph = .tested f ∨ (ph = .none ∧ CanFire C w0' f)) → w'.bv = f.bv → w'.procs = w0'.procs →
      Fires C ph w0' (((GenM.set (fun w => { w with curSlots := w.noSlots }) >>= fun _ => GenM.event f.time procName (.fired f.name) >>= fun _ => genRhs C f.name rule f.time) >>= fun _ => GenM.yield .procs) w') :=
    fun ph w0' w' hph hv hp => ⟨adds_same hp, rfl, .fired f, .inr (.inr ⟨f, rfl, hph, rfl⟩), fun w'' ho => hacts w'' (ho.bv.trans hv)⟩
  obtain ⟨r1, r2⟩ := rewardStep_rest C f.name f.time w
  obtain ⟨c1, c2, _⟩ := compileIn_rest C (rewardStep C f.name f.time w)
  unfold genFire
  simp only [genM_bind_apply, genM_set_apply, out_bind_ret]
  rcases hcomp : compileIn C (rewardStep C f.name f.time w) with ⟨w1, e | comp⟩
  · rw [hcomp] at c1 c2
    rw [genM_act_error hcomp]
    exact adds_same (c2.trans (r2.trans hp))
  · rw [hcomp] at c1 c2
    rw [genM_act_ok hcomp]
    rcases comp with _ | ⟨n, re⟩
    · exact hfire .none w0 { w1 with compile := Option.none } (.inr ⟨rfl, hc⟩) (c1.trans (r1.trans hv)) (c2.trans (r2.trans hp))
    · exact ⟨adds_same (c2.trans (r2.trans hp)), rfl, .tested f, .inr (.inl ⟨rfl, f, rfl, hc⟩), fun w' ho => hfire (.tested f) w' w' (.inl rfl) (ho.bv.trans (c1.trans (r1.trans hv))) rfl⟩

/-- The test of the rule. -/
theorem fires_test (C : Cfg) {n : String} {rule : CRule} {t : ℚ} {w : Mach} (hr : ∃ r', alook n w.rules = some r' ∧ r'.body = rule.body) (hv : w.bv = BV.init) :
    Fires C .none w ((genTest C n rule t >>= fun _ => GenM.yield .procs) w) := by
  unfold genTest
  simp only [genM_bind_apply]
  rcases hl : rule.body.lhs with e | lhs
  · exact adds_same rfl
  · simp only [genM_lift_ok, out_bind_ret]
    rcases ht : lhsTest C.P.H w.faces lhs w.bv with e | m
    · rw [genM_bind_apply, genM_act_error (f := fun w : Mach => (w, lhsTest C.P.H w.faces lhs w.bv)) (w' := w) (e := e) (by rw [ht])]
      exact adds_same rfl
    · rw [genM_bind_apply, genM_act_ok (f := fun w : Mach => (w, lhsTest C.P.H w.faces lhs w.bv)) (w' := w) (a := m) (by rw [ht])]
      rcases m with _ | bv
      · exact ⟨adds_same rfl, rfl, .none, .inl rfl, fun w' _ => ⟨adds_same rfl, trivial, .none, .inl rfl, fun w'' _ => adds_same rfl⟩⟩
      · obtain ⟨r', h1, h2⟩ := hr
        rw [hv] at ht
        exact fires_fire C (f := ⟨n, rule.body, bv, t⟩) rfl (w0 := w) (w := { w with bv := bv }) ⟨r', lhs, h1, h2, hl, ht⟩ rfl rfl

/-- One cycle. -/
theorem fires_procedural (C : Cfg) (t : ℚ) (w : Mach) : Fires C .none w (genProcedural C t w) := by
  refine ⟨fun n i d hd => ?_, rfl, .none, .inl rfl, fun w1 ho => ?_⟩
  · rcases List.mem_append.1 hd with hd | hd
    · exact .inl hd
    · rw [List.mem_singleton] at hd; cases hd
  have hbv : w1.bv = BV.init := ho.bv
  rcases hs : selectIn C w1 with ⟨w2, e | sel⟩
  · have hp : w2.procs = w1.procs := by
      have := congrArg (fun x => x.1.procs) hs
      rw [← this]
      unfold selectIn
      dsimp only
      split
      · rfl
      · rfl
      · split <;> rfl
    show Fires C .none w1 ((GenM.act (selectIn C) >>= _) w1)
    rw [genM_bind_apply, genM_act_error hs]
    exact adds_same hp
  · show Fires C .none w1 ((GenM.act (selectIn C) >>= _) w1)
    rw [genM_bind_apply, genM_act_ok hs]
    have hq : w2.procs = w1.procs ∧ w2.bv = w1.bv ∧ w2.rules = w1.rules ∧ ∀ n rule, sel = some (n, rule) → alook n w1.rules = some rule := by
      unfold selectIn at hs
      dsimp only at hs
      split at hs
      · cases hs
      · cases hs; exact ⟨rfl, rfl, rfl, fun _ _ h => by cases h⟩
      · split at hs
        · cases hs
        · rename_i rule hr
          cases hs
          exact ⟨rfl, rfl, rfl, fun _ _ h => by cases h; exact hr⟩
    obtain ⟨q1, q2, q3, q4⟩ := hq
    rcases sel with _ | ⟨n, rule⟩
    · have hrem : ∀ l n i d, PItem.gen n i d ∈ removeProcedural l → .gen n i d ∈ l := by
        intro l
        induction l with
        | nil => intro n i d h; exact h
        | cons x l ih =>
          intro n i d h
          cases x with
          | procedural => exact .tail _ h
          | gen m j d' =>
            rcases List.mem_cons.1 h with h | h
            · exact h ▸ .head _
            · exact .tail _ (ih n i d h)
      exact ⟨fun n i d hd => .inl (q1 ▸ hrem _ n i d hd), rfl, .none, .inl rfl, fun w3 _ => ⟨adds_same rfl, trivial, .none, .inl rfl, fun w4 _ => adds_same rfl⟩⟩
    · have hr := q4 n rule rfl
      refine ⟨adds_same q1, rfl, .none, .inl rfl, fun w3 h3 => ⟨adds_same rfl, rfl, .none, .inl rfl, fun w4 h4 => ?_⟩⟩
      obtain ⟨r3, g3, e3⟩ := h3.rules n rule (by show alook n w2.rules = _; rw [q3]; exact hr)
      obtain ⟨r4, g4, e4⟩ := h4.rules n r3 g3
      exact fires_test C ⟨r4, g4, e4.trans e3⟩ (h4.bv.trans (h3.bv.trans (q2.trans hbv)))

end Verif
