import Verif.Spec.Credit
import Verif.Lemmas.Within
import Verif.Lemmas.Handsoff
import Verif.Lemmas.Storage
/-! # Whom reports are attributed to -/
namespace Verif
open Verif.Spec

variable {A B : Type} {N : List (String × BufClass)}

/-! ## Processes of modules -/

/-- Attributed as it should be: to one of these buffers, and one of the right kind. -/
def Apt (N : List (String × BufClass)) (e : Ev) : Prop := Credited (N.map Prod.fst) e ∧ Befits N e

/-- Events and continuations of the module with this name. -/
def NamedY (N : List (String × BufClass)) (n : String) : YV → Prop
  | .ev e => e.proc = n ∧ teller e.act = .buffer ∧ Befits N e
  | .cont d => Suits N d
  | _ => True

theorem namedY_event (t : ℚ) (n : String) {a : Act} (h : teller a = .buffer) (h' : kindFor a = Option.none) : NamedY N n (.ev ⟨round4 t, n, a⟩) :=
  ⟨rfl, h, fun c hc => by rw [show kindFor a = some c from hc] at h'; cases h'⟩
theorem namedY_kind (t : ℚ) (n : String) {a : Act} {c : BufClass} (h : teller a = .buffer) (h' : kindFor a = some c) (hn : (n, c) ∈ N) : NamedY N n (.ev ⟨round4 t, n, a⟩) :=
  ⟨rfl, h, fun k hk => by rw [show kindFor a = some k from hk] at h'; cases h'; exact hn⟩
theorem namedY_shift {n : String} {c : Chunk} {bv : BV} {t : ℚ} {ts : ℚ × ℚ × ℚ} {s : ℚ × ℚ} (hn : (n, .visual) ∈ N) : NamedY N n (.cont (.visualContinue n c bv t ts s)) :=
  ⟨.visual, hn, fun k hk => by cases hk; rfl⟩
theorem namedY_press {n k : String} {t : ℚ} {p : ℚ × ℚ × ℚ × ℚ} (hn : (n, .motor) ∈ N) : NamedY N n (.cont (.motorContinue n k t p)) := ⟨.motor, hn, fun k hk => by cases hk; rfl⟩
theorem namedY_nothing {n : String} : NamedY N n .nothing := trivial

macro "named" : tactic => `(tactic| repeat' with_reducible first
  | exact emits_event (namedY_event _ _ rfl rfl) | exact emits_event (namedY_kind _ _ rfl rfl (by assumption))
  | exact emits_yield (namedY_shift (by assumption)) | exact emits_yield (namedY_press (by assumption))
  | exact emits_yield namedY_nothing
  | exact emits_get | exact emits_lift | exact emits_throw | exact emits_pure | exact emits_pure' | exact emits_set | exact emits_act
  | assumption
  | refine emits_bind ?_ fun _ => ?_
  | split)

theorem namedY_clear (C : Cfg) (n : String) (v : RVal) (t : ℚ) (f : Bool) : Emits (NamedY N n) (genClear C n v t f) := by unfold genClear; named
theorem namedY_extraTest (n : String) (v : RVal) (t : ℚ) : Emits (NamedY N n) (genExtraTest n v t) := by unfold genExtraTest; named
theorem namedY_execute (C : Cfg) (n : String) (v : RVal) (t : ℚ) : Emits (NamedY N n) (genExecute C n v t) := by unfold genExecute; named
theorem namedY_modify (C : Cfg) (n : String) (v : RVal) (bv : BV) (t : ℚ) : Emits (NamedY N n) (genModify C n v bv t) := by
  unfold genModify recordModify; named
theorem namedY_modifyRequest (C : Cfg) (n : String) (v : RVal) (bv : BV) (t : ℚ) : Emits (NamedY N n) (genModifyRequest C n v bv t) := by
  unfold genModifyRequest recordModify; named
theorem namedY_overwrite (C : Cfg) (n : String) (v : RVal) (bv : BV) (t : ℚ) : Emits (NamedY N n) (genOverwrite C n v bv t) := by
  unfold genOverwrite recordSet; named
theorem namedY_setGoal (C : Cfg) (n : String) (v : RVal) (bv : BV) (t : ℚ) (hn : (n, .goal) ∈ N) : Emits (NamedY N n) (genSetGoal C n v bv t) := by
  have h := namedY_clear (N := N) C n v t false
  unfold genSetGoal recordSet; named
theorem namedY_retrieve (C : Cfg) (n : String) (v : RVal) (bv : BV) (t : ℚ) (hn : (n, .decmem) ∈ N) : Emits (NamedY N n) (genRetrieve C n v bv t) := by
  unfold genRetrieve recordRetrieved; named
theorem namedY_findLocation (C : Cfg) (n : String) (v : RVal) (bv : BV) (t : ℚ) (hn : (n, .visualLocation) ∈ N) : Emits (NamedY N n) (genFindLocation C n v bv t) := by
  have h := namedY_clear (N := N) C n .nothing t false
  unfold genFindLocation; named
theorem namedY_visualencode (C : Cfg) (n : String) (c : Chunk) (t x : ℚ) (s : ℚ × ℚ) (hn : (n, .visual) ∈ N) : Emits (NamedY N n) (genVisualencode C n c t x s) := by
  have h := namedY_clear (N := N) C n .nothing (t + x) false
  unfold genVisualencode; named
theorem namedY_visualshift (C : Cfg) (n : String) (v : RVal) (bv : BV) (t : ℚ) (hn : (n, .visual) ∈ N) : Emits (NamedY N n) (genVisualshift C n v bv t) := by
  have h := fun c t x s => namedY_visualencode C n c t x s hn
  unfold genVisualshift
  repeat' with_reducible first | exact h _ _ _ _ | (named; done) | refine emits_bind ?_ fun _ => ?_ | split
theorem namedY_visualcontinue (C : Cfg) (n : String) (c : Chunk) (bv : BV) (t : ℚ) (ts : ℚ × ℚ × ℚ) (s : ℚ × ℚ) (hn : (n, .visual) ∈ N) :
    Emits (NamedY N n) (genVisualcontinue C n c bv t ts s) := by
  have h := fun c t x s => namedY_visualencode C n c t x s hn
  unfold genVisualcontinue
  repeat' with_reducible first | exact h _ _ _ _ | (named; done) | refine emits_bind ?_ fun _ => ?_ | split
theorem namedY_visual (C : Cfg) (n : String) (v : RVal) (bv : BV) (t : ℚ) (hn : (n, .visual) ∈ N) : Emits (NamedY N n) (genVisual C n v bv t) := by
  have h := namedY_visualshift C n v bv t hn
  unfold genVisual; named
theorem namedY_autoSearch (C : Cfg) (n : String) (s : List Stim) (t : ℚ) (hn : (n, .visualLocation) ∈ N) : Emits (NamedY N n) (genAutoSearch C n s t) := by unfold genAutoSearch; named
theorem namedY_autoBuffer (C : Cfg) (n : String) (s : List Stim) (t : ℚ) (hn : (n, .visual) ∈ N) : Emits (NamedY N n) (genAutoBuffer C n s t) := by unfold genAutoBuffer; named
theorem namedY_motorset (C : Cfg) (n : String) (v : RVal) (bv : BV) (t : ℚ) (hn : (n, .motor) ∈ N) : Emits (NamedY N n) (genMotorset C n v bv t) := by unfold genMotorset; named
theorem namedY_motorcontinue (n : String) (k : String) (t : ℚ) (pr : ℚ × ℚ × ℚ × ℚ) (hn : (n, .motor) ∈ N) : Emits (NamedY N n) (genMotorcontinue n k t pr) := by
  unfold genMotorcontinue; named
theorem namedY_immediate (C : Cfg) (k : Key) (v : RVal) (bv : BV) (t : ℚ) : Emits (NamedY N k.name) (immediate C k v bv t) := by
  unfold immediate
  split_ifs
  · exact fun w => namedY_extraTest ..
  · exact fun w => namedY_execute ..
  · exact fun w => namedY_modify ..
  · exact fun w => namedY_overwrite ..
  · exact fun w => namedY_clear ..

/-! ## Generators -/

variable {w w' : Mach} {C : Cfg}

/-- Processes in a list work for buffers of the model. -/
def ItemsIn (N : List (String × BufClass)) (l : List PItem) : Prop := ∀ n i d, .gen n i d ∈ l → Suits N d

/-- There are buffers, but no motor buffers. (The invariant below says nothing about keys when a buffer is listed twice, so that nothing
has to be known about keys at the beginning where they do not matter.) -/
def Handless (N : List (String × BufClass)) : Prop := (N ≠ [] ∧ N.Nodup) ∧ ∀ n, (n, BufClass.motor) ∉ N

/-- A model with no other buffers than these; without motor buffers no key has been pressed. -/
structure Peopled (N : List (String × BufClass)) (w : Mach) : Prop where
  names : kindsOf w ⊆ N
  procs : ItemsIn N w.procs
  quiet : Handless N → w.interaction = []

theorem peopled_same (h : Peopled N w) (h1 : kindsOf w' = kindsOf w) (h2 : w'.procs = w.procs) (h3 : w.interaction = [] → w'.interaction = []) : Peopled N w' :=
  ⟨by rw [h1]; exact h.names, by rw [h2]; exact h.procs, fun hN => h3 (h.quiet hN)⟩

theorem peopled_confined {n : String} (h : Peopled N w) (hc : Confined n w w') (hi : Handless N → Handsoff w w') : Peopled N w' :=
  ⟨by rw [show kindsOf w' = kindsOf w from hc.shape]; exact h.names, by rw [hc.procs]; exact h.procs, fun hN => (hi hN).trans (h.quiet hN)⟩

theorem mem_kinds {n : String} {b : Buf} (h : Peopled N w) (hb : w.buf n = some b) : (n, b.cls) ∈ N :=
  h.names (List.mem_map_of_mem (f := fun p : String × Buf => (p.1, p.2.cls)) (alook_mem hb))

theorem peopled_setState {n : String} {x : Status} (h : Peopled N w) : Peopled N (w.setState n x) := peopled_confined h confined_setState fun _ => handsoff_setState

theorem namedY_retrieveorset (C : Cfg) (n : String) (v : RVal) (bv : BV) (t : ℚ) (h : Peopled N w) : (genRetrieveorset C n v bv t w).Yields (NamedY N n) := by
  have hp := peopled_setState (n := n) (x := .busy) h
  have h0 : genRetrieveorset C n v bv t w = (match ((w.setState n .busy).buf n).map Buf.cls with
    | some .goal => genSetGoal C n v bv t
    | some .visualLocation => genFindLocation C n v bv t
    | some .visual => genVisual C n v bv t
    | some .motor => do
      genMotorset C n v bv t
      .yield .nothing
    | some .decmem => genRetrieve C n v bv t
    | Option.none => .throw .attribute) (w.setState n .busy) := rfl
  rw [h0]
  cases hb : (w.setState n .busy).buf n with
  | none => exact emits_throw _
  | some b =>
    have hk := mem_kinds hp hb
    simp only [Option.map_some]
    cases hc : b.cls <;> rw [hc] at hk <;> dsimp only
    · exact namedY_setGoal C n v bv t hk _
    · exact namedY_retrieve C n v bv t hk _
    · exact emits_bind (namedY_motorset C n v bv t hk) (fun _ => emits_yield namedY_nothing) _
    · exact namedY_visual C n v bv t hk _
    · exact namedY_findLocation C n v bv t hk _

/-- All processes of modules. -/
theorem namedY_run (C : Cfg) (d : Desc) (hd : Suits N d) (h : Peopled N w) : (d.run C w).Yields (NamedY N (worksFor d)) := by
  obtain ⟨c, hm, hk⟩ := hd
  cases d with
  | retrieveorset n v bv t => exact namedY_retrieveorset C n v bv t h
  | modifyRequest n v bv t => exact namedY_modifyRequest C n v bv t w
  | clear n bv t => exact namedY_clear C n .nothing t true w
  | autoSearch n s t => cases hk _ rfl; exact namedY_autoSearch C n s t hm w
  | autoBuffer n s t => cases hk _ rfl; exact namedY_autoBuffer C n s t hm w
  | visualContinue n c bv t ts s => cases hk _ rfl; exact namedY_visualcontinue C n c bv t ts s hm w
  | motorContinue n k t pr => cases hk _ rfl; exact namedY_motorcontinue n k t pr hm w

theorem names_of_kinds {n : String} {c : BufClass} (h : (n, c) ∈ N) : n ∈ N.map Prod.fst := List.mem_map_of_mem (f := Prod.fst) h

theorem itemsIn_append {l : List PItem} {n : String} {i : ℕ} {d : Desc} (h : ItemsIn N l) (hd : Suits N d) : ItemsIn N (l ++ [.gen n i d]) := fun m j d' hm => by
  rcases List.mem_append.1 hm with hm | hm
  · exact h m j d' hm
  · rw [List.mem_singleton] at hm
    cases hm
    exact hd

/-- What is yielded is attributed as it should be. -/
def FitsY (N : List (String × BufClass)) : YV → Prop
  | .ev e => e.act = .unknown ∨ Apt N e
  | .cont d => Suits N d
  | _ => True

theorem fitsY_named {n : String} {c : BufClass} (hn : (n, c) ∈ N) {y : YV} (h : NamedY N n y) : FitsY N y := by
  cases y with
  | ev e => exact .inr ⟨by unfold Credited; rw [h.2.1]; exact h.1 ▸ names_of_kinds hn, h.2.2⟩
  | cont d => exact h
  | _ => trivial

theorem apt_rules {t : ℚ} {a : Act} (h : teller a = .rules) : Apt N ⟨round4 t, procName, a⟩ := by
  refine ⟨?_, fun c hc => ?_⟩
  · unfold Credited; rw [h]; rfl
  · cases a <;> first | (cases hc; done) | (cases h; done)

/-- A generator that attributes what it yields as it should be. -/
def Credits (N : List (String × BufClass)) : Out Mach YV A → Prop
  | .yield w y k => Peopled N w ∧ FitsY N y ∧ ∀ w', Peopled N w' → Credits N (k w')
  | .ret w _ => Peopled N w
  | .raise w _ => Peopled N w

theorem credits_confined {n : String} {c : BufClass} (hn : (n, c) ∈ N) {o : Out Mach YV A} : ∀ {w : Mach}, Peopled N w → o.Moves (Confined n) w → (Handless N → o.Moves Handsoff w) → o.Yields (NamedY N n) → Credits N o := by
  induction o with
  | yield w1 y k ih => exact fun h hm hh hy => ⟨peopled_confined h hm.1 fun hN => (hh hN).1, fitsY_named hn hy.1, fun w' h' => ih w' h' (hm.2 w') (fun hN => (hh hN).2 w') (hy.2 w')⟩
  | ret w1 a => exact fun h hm hh _ => peopled_confined h hm hh
  | raise w1 e => exact fun h hm hh _ => peopled_confined h hm hh

/-- From all states. -/
def Crediting (N : List (String × BufClass)) (g : GenM A) : Prop := ∀ w, Peopled N w → Credits N (g w)

theorem credits_bind {f : A → GenM B} {o : Out Mach YV A} (ho : Credits N o) (hf : ∀ a, Crediting N (f a)) : Credits N (o.bind f) := by
  induction o with
  | yield w y k ih => exact ⟨ho.1, ho.2.1, fun w' h' => ih w' (ho.2.2 w' h')⟩
  | ret w a => exact hf a w ho
  | raise w e => exact ho

theorem crediting_bind {g : GenM A} {f : A → GenM B} (hg : Crediting N g) (hf : ∀ a, Crediting N (f a)) : Crediting N (g >>= f) :=
  fun w h => credits_bind (hg w h) hf
theorem crediting_pure {a : A} : Crediting N (Pure.pure a : GenM A) := fun _ h => h
theorem crediting_pure' {a : A} : Crediting N (GenM.pure a : GenM A) := fun _ h => h
theorem crediting_throw {e : PyErr} : Crediting N (GenM.throw e : GenM A) := fun _ h => h
theorem crediting_get {f : Mach → A} : Crediting N (GenM.get f) := fun _ h => h
theorem crediting_set {f : Mach → Mach} (hf : ∀ w, Peopled N w → Peopled N (f w)) : Crediting N (GenM.set f) := fun w h => hf w h
theorem crediting_keep {f : Mach → Mach} (h1 : ∀ w, (f w).bufs = w.bufs) (h2 : ∀ w, (f w).procs = w.procs) (h3 : ∀ w, (f w).interaction = w.interaction) : Crediting N (GenM.set f) :=
  crediting_set fun w h => peopled_same h (by unfold kindsOf; rw [h1]) (h2 w) (by rw [h3]; exact id)
theorem crediting_act {f : Mach → Mach × Except PyErr A} (hf : ∀ w, Peopled N w → Peopled N (f w).1) : Crediting N (GenM.act f) := fun w h => by
  have := hf w h
  unfold GenM.act
  rcases hfw : f w with ⟨w1, e | a⟩ <;> rw [hfw] at this <;> exact this
theorem crediting_lift {x : Except PyErr A} : Crediting N (GenM.lift x) := crediting_act fun _ h => h
theorem crediting_event {t : ℚ} {n : String} {a : Act} (h : FitsY N (.ev ⟨round4 t, n, a⟩)) : Crediting N (GenM.event t n a) := fun _ hw => ⟨hw, h, fun _ h' => h'⟩
theorem crediting_yield {y : YV} (h : FitsY N y) : Crediting N (GenM.yield y) := fun _ hw => ⟨hw, h, fun _ h' => h'⟩

theorem crediting_run (d : Desc) (hd : Suits N d) : Crediting N (d.run C) := fun w h => credits_confined hd.choose_spec.1 h ((confined_run C d).moves w)
  (fun hN => (handsoff_run C d fun hk => hN.2 (worksFor d) (by have := hd.choose_spec; rw [← this.2 _ hk] at this; exact this.1)).moves w) (namedY_run C d hd h)

theorem peopled_queue {n : String} {d : Desc} (h : Peopled N w) (hd : Suits N d) : Peopled N (w.queue n d) := ⟨h.names, itemsIn_append h.procs hd, h.quiet⟩

theorem peopled_harvestAll (t : ℚ) : ∀ (l : List String) {w : Mach}, Peopled N w → Peopled N (harvestAll t l w)
  | [], _, h => h
  | n :: r, w, h => by
    unfold harvestAll
    refine peopled_harvestAll t r ?_
    split
    · rename_i b hb
      exact peopled_queue h ⟨b.cls, mem_kinds h hb, fun k hk => by cases hk⟩
    · exact h

theorem crediting_updateLoop (t : ℚ) : ∀ l temp, Crediting N (updateLoop C t l temp)
  | [], _ => crediting_pure'
  | (k, v) :: r, temp => by
    have ih := crediting_updateLoop t r (temp.popVar k.name)
    intro w h
    unfold updateLoop
    by_cases hk : ∃ c, (k.name, c) ∈ N
    · obtain ⟨c, hk⟩ := hk
      refine crediting_bind (crediting_act fun w h => ?_) (fun _ => crediting_bind crediting_get fun bv => crediting_bind (crediting_set fun w h => peopled_setState h) fun _ => ?_) w h
      · split <;> exact h
      · dsimp only
        split <;> refine crediting_bind ?_ fun _ => ih
        · refine crediting_set fun w h => peopled_queue h ?_
          unfold queuedDesc
          split <;> exact ⟨c, hk, fun k hk => by cases hk⟩
        · exact fun w h => credits_confined hk h ((confined_immediate C k v bv t).moves w) (fun _ => (handsoff_immediate C k v bv t).moves w) (namedY_immediate C k v bv t w)
    · have hn : w.buf k.name = Option.none := by
        cases hb : w.buf k.name with
        | none => rfl
        | some b => exact absurd ⟨b.cls, mem_kinds h hb⟩ hk
      show Credits N (Out.bind (GenM.act _ w) _)
      unfold GenM.act
      simp only [hn]
      exact h

theorem crediting_rhs (n : String) (rule : CRule) (t : ℚ) : Crediting N (genRhs C n rule t) := by
  unfold genRhs genUpdate
  refine crediting_bind crediting_lift fun rhs => crediting_bind ?_ fun _ => crediting_set fun w h => ?_
  · refine crediting_bind crediting_get fun temp => crediting_bind crediting_lift fun sorted => crediting_bind (crediting_updateLoop t _ _) fun left => crediting_set fun w h => ?_
    split
    · exact peopled_harvestAll t _ h
    · exact h
  · split
    · split <;> exact ⟨h.names, h.procs, h.quiet⟩
    · exact ⟨h.names, h.procs, h.quiet⟩

theorem rewardStep_procs (n : String) (t : ℚ) (w : Mach) : (rewardStep C n t w).procs = w.procs := by unfold rewardStep; split <;> [split <;> rfl; rfl]

theorem rewardStep_interaction (n : String) (t : ℚ) (w : Mach) : (rewardStep C n t w).interaction = w.interaction := by unfold rewardStep; split <;> [split <;> rfl; rfl]
theorem compileIn_interaction (w : Mach) : (compileIn C w).1.interaction = w.interaction := by
  unfold compileIn
  split
  · dsimp only
    split <;> rfl
  · rfl

theorem crediting_fire (n : String) (rule : CRule) (t : ℚ) : Crediting N (genFire C n rule t) := by
  unfold genFire
  refine crediting_bind (crediting_keep (fun w => (rewardStep_bufs n t w).1) (rewardStep_procs n t) (rewardStep_interaction n t)) fun _ => crediting_bind (crediting_act fun w h => ?_) fun comp => ?_
  · obtain ⟨_, h2, h3⟩ := compileIn_rest C w
    exact peopled_same h (by unfold kindsOf; rw [h3]) h2 (by rw [compileIn_interaction]; exact id)
  refine crediting_bind (crediting_keep (fun _ => rfl) (fun _ => rfl) fun _ => rfl) fun _ => ?_
  have hlast : Crediting N (do
      .set (fun w => { w with curSlots := w.noSlots })
      .event t procName (.fired n)
      genRhs C n rule t : GenM Unit) :=
    crediting_bind (crediting_keep (fun _ => rfl) (fun _ => rfl) fun _ => rfl) fun _ => crediting_bind (crediting_event (.inr (apt_rules rfl))) fun _ => crediting_rhs n rule t
  dsimp only
  split
  · exact crediting_bind (crediting_event (.inr (apt_rules rfl))) fun _ => hlast
  · exact hlast

theorem peopled_selectIn (h : Peopled N w) : Peopled N (selectIn C w).1 := by
  unfold selectIn
  dsimp only
  split
  · exact ⟨h.names, h.procs, h.quiet⟩
  · exact ⟨h.names, h.procs, h.quiet⟩
  · split <;> exact ⟨h.names, h.procs, h.quiet⟩

/-- The process of the rules. -/
theorem crediting_procedural (t : ℚ) : Crediting N (genProcedural C t) := by
  unfold genProcedural
  refine crediting_bind (crediting_set fun w h => ⟨h.names, fun n i d hm => ?_, h.quiet⟩) fun _ => crediting_bind (crediting_event (.inr (apt_rules rfl))) fun _ => crediting_bind (crediting_act fun w h => peopled_selectIn h) fun sel => ?_
  · rcases List.mem_append.1 hm with hm | hm
    · exact h.procs n i d hm
    · rw [List.mem_singleton] at hm; cases hm
  · have hend : Crediting N (GenM.yield .procs) := crediting_yield (y := .procs) trivial
    dsimp only
    split
    · exact crediting_bind (crediting_set fun w h => ⟨h.names, fun n i d hm => h.procs n i d (mem_removeProcedural hm), h.quiet⟩) fun _ => crediting_bind (crediting_event (.inr (apt_rules rfl))) fun _ => hend
    · rename_i name rule
      refine crediting_bind ?_ fun _ => hend
      unfold genSelected genTest
      refine crediting_bind (crediting_keep (fun _ => rfl) (fun _ => rfl) fun _ => rfl) fun _ => crediting_bind (crediting_event (.inr (apt_rules rfl))) fun _ => crediting_bind (crediting_event (.inl rfl)) fun _ =>
        crediting_bind crediting_lift fun lhs => crediting_bind (crediting_act fun w h => h) fun m => ?_
      split
      · exact crediting_event (.inr (apt_rules rfl))
      · exact crediting_bind (crediting_keep (fun _ => rfl) (fun _ => rfl) fun _ => rfl) fun _ => crediting_fire _ _ _

end Verif
