import Verif.Lemmas.Firing
import Verif.Props.Sequence
import Verif.Props.Cycle
import Verif.Lemmas.ExMachine
import Verif.Props.Update
/-! # Property C68: firing a rule that modifies buffers -/
namespace Verif.Props
open Verif Verif.Spec

/-- What C68 says about a run that ends with `e`. -/
def FiredRight (C : Cfg) (l : List (Key × LVal)) (r : List (Key × RVal)) (w : Mach) (e : GEnd Mach Unit) : Prop :=
  ((∃ σ, RuleHolds DataVal w.faces l σ) →
    (∀ w' x, e = .raise w' x → C.compilation = true ∧ w.compile ≠ Option.none) ∧
    ∀ w', e = .ret w' () → Fires DataVal l r w.faces w'.faces ∧ (C.compilation = true → Recorded l r w'.curSlots ∧ w'.curSlots.map Prod.fst = w.bufs.map Prod.fst)) ∧
  ((¬ ∃ σ, RuleHolds DataVal w.faces l σ) → ∀ w', e = .ret w' () → w'.faces = w.faces)

/-- The whole of C68: a rule that has been selected and only modifies buffers is carried out. If its conditions hold, the buffers
afterwards are as its actions say, everything else in the buffers is as before, and what is noted for compilation, buffer by buffer, is
what is known about the slots; nothing can go wrong, except for the compilation of the two rules before. If the conditions do not hold, the buffers
stay as they are. -/
def C68_full : Prop := ∀ (C : Cfg) (name : String) (rule : CRule) (l : List (Key × LVal)) (r : List (Key × RVal)) (t : ℚ) (w : Mach)
  (tr : List (Mach × YV)) (e : GEnd Mach Unit), C.P.H.CollisionFree → AboutToFire C name rule l r w →
  Runs Undisturbed (genTest C name rule t w) tr e → FiredRight C l r w e

theorem slotHas_exists (d : Chunk) (n : String) : ∃ w, SlotHas d n w := by
  by_cases h : ∃ s, (n, s) ∈ d.slots
  · obtain ⟨s, hs⟩ := h
    cases s with
    | empty => exact ⟨_, .empty hs⟩
    | vv x => exact ⟨_, .val hs⟩
  · exact ⟨_, .missing (fun s hs => h ⟨s, hs⟩)⟩

theorem holds_bound {D : Val → Prop} {faces : Faces} {l : List (Key × LVal)} {σ : String → Option Val} (h : RuleHolds D faces l σ)
    {y : String} (hy : PosVar l y) (hne : y ≠ "") : ∃ v, σ y = some v := by
  obtain ⟨n, p, m, x, hp, hm, hx⟩ := hy
  cases h.conds _ hp with
  | @test _ _ _ d _ hb hd hc _ =>
    obtain ⟨w, hw⟩ := slotHas_exists d m
    obtain ⟨v, hv, _⟩ := hc.pos m x y w hm hx hne hw
    exact ⟨v, hv⟩

theorem alook_faces (w : Mach) (b : String) : alook b w.faces = (w.buf b).map (fun f => ⟨f.data, f.attrs⟩) := by
  unfold Mach.faces Mach.buf
  induction w.bufs with
  | nil => rfl
  | cons p l ih =>
    simp only [List.map_cons, alook]
    split
    · rfl
    · exact ih

/-- The machine's modifications are those of the specification. -/
theorem modifications_modified {C : Cfg} {σ : String → Option Val} {r : List (Key × RVal)} {w w' : Mach} (h : Modifications C σ r w w')
    (hfree : ∀ b c f, ((⟨'=', b⟩ : Key), RVal.chunk c) ∈ r → w.buf b = some f → f.state = .free) : Modified σ r w.faces w'.faces := by
  refine ⟨?_, ?_⟩
  · intro b c hm
    obtain ⟨f, d, d', seen, h1, h2, h3, h4⟩ := h.acted b c hm
    refine ⟨⟨f.data, f.attrs⟩, d, [], d', by rw [alook_faces, h1]; rfl, h2, ?_, h4⟩
    rw [alook_faces, h3]
    have hs := hfree b c f hm h1
    simp only [Option.map_some, Buf.attrs, hs]
  · intro b hno
    rw [alook_faces, alook_faces, h.rest b hno]

/-- ... and what is noted is what is known. -/
theorem modifications_recorded {C : Cfg} {σ : String → Option Val} {l : List (Key × LVal)} {r : List (Key × RVal)} {w w' : Mach}
    {name : String} {rule : CRule} (h : Modifications C σ r w w') (hc : C.compilation = true) (hdict : (w.bufs.map Prod.fst).Nodup)
    (hcur : w.curSlots = w.noSlots) (hused : w.usedName = some name) (hrule : alook name w.rules = some rule)
    (hbody : rule.body.lhs = .ok l) (hdl : (l.map Prod.fst).Nodup) (hP : GoodPatterns l)
    (hl : ∀ b v, ((⟨'=', b⟩ : Key), v) ∈ l → ∃ c, v = LVal.chunk c)
    (hn : ∀ b c, ((⟨'=', b⟩ : Key), RVal.chunk c) ∈ r → Named c) : Recorded l r w'.curSlots := by
  have hkeys : w.noSlots.map Prod.fst = w.bufs.map Prod.fst := by simp [Mach.noSlots, Function.comp_def]
  have hnone : ∀ b, alook b w.noSlots = Option.none ∨ alook b w.noSlots = some .nothing := by
    intro b
    unfold Mach.noSlots
    induction w.bufs with
    | nil => exact Or.inl rfl
    | cons p bs ih =>
      simp only [List.map_cons, alook]
      split
      · exact Or.inr rfl
      · exact ih
  refine ⟨h.nodup (by rw [hcur, hkeys]; exact hdict) hc, ?_, ?_⟩
  · intro b c hm
    obtain ⟨ds, h1, h2⟩ := h.slots hc b c hm
    refine ⟨_, h2, ?_⟩
    have hgs : ((givenSlots c).map Prod.fst).Nodup := (List.filter_sublist.map _).nodup (hn b c hm)
    have hlook : ∀ n, alook n (dictUpdate ds (givenSlots c)) = (alook n (givenSlots c)).or (alook n ds) :=
      fun n => alook_dictUpdate n _ _ hgs
    have hgiven : ∀ n x, (n, SlotOf.vv x) ∈ c.slots → alook n (givenSlots c) = some (.vv x) := by
      intro n x hx
      exact alook_of_mem hgs (List.mem_filter.2 ⟨hx, rfl⟩)
    have hnotgiven : ∀ n, (∀ x, (n, SlotOf.vv x) ∉ c.slots) → alook n (givenSlots c) = Option.none := by
      intro n hno
      rw [alook_none_iff]
      intro s hs
      obtain ⟨h3, h4⟩ := List.mem_filter.1 hs
      cases s with
      | empty => simp at h4
      | vv x => exact hno x h3
    unfold lhsSlots at h1
    simp only [hused, hrule, hbody] at h1
    -- what the test says about the buffer
    have hds : (∀ c1, ((⟨'=', b⟩ : Key), LVal.chunk c1) ∈ l → ds = c1.slots) ∧
        ((∀ c1, ((⟨'=', b⟩ : Key), LVal.chunk c1) ∉ l) → ds = []) := by
      constructor
      · intro c1 hc1
        rw [klook_of_mem hdl hc1] at h1
        cases h1; rfl
      · intro hno
        have : klook ⟨'=', b⟩ l = Option.none := by
          rw [klook_none_iff]
          intro hk
          obtain ⟨⟨k, v⟩, hv, hkv⟩ := List.mem_map.1 hk
          simp only at hkv
          subst hkv
          obtain ⟨c1, rfl⟩ := hl b v hv
          exact hno c1 hv
        rw [this] at h1
        cases h1; rfl
    refine ⟨?_, ?_, ?_⟩
    · refine nodup_dictUpdate _ _ ?_
      by_cases ht : ∃ c1, ((⟨'=', b⟩ : Key), LVal.chunk c1) ∈ l
      · obtain ⟨c1, hc1⟩ := ht
        rw [hds.1 c1 hc1]
        exact (hP b c1 hc1).1
      · rw [hds.2 (fun c1 hc1 => ht ⟨c1, hc1⟩)]; simp
    · intro n x hx
      rw [hlook, hgiven n x hx]; rfl
    · intro n hno
      rw [hlook, hnotgiven n hno]
      refine ⟨fun c1 hc1 => by rw [hds.1 c1 hc1]; rfl, fun hno => by rw [hds.2 hno]; rfl⟩
  · intro b hno
    rw [h.restSlots hc b hno, hcur]
    exact hnone b

/-- C68 (partial): for rules that put no variables into buffers for visual locations. Missing: those that do (`C68_refuted`). -/
theorem C68_partial (C : Cfg) (name : String) (rule : CRule) (l : List (Key × LVal)) (r : List (Key × RVal)) (t : ℚ) (w : Mach)
    (tr : List (Mach × YV)) (e : GEnd Mach Unit) (cf : C.P.H.CollisionFree) (h : AboutToFire C name rule l r w)
    (hv : NoVarsInLocations r w) (hr : Runs Undisturbed (genTest C name rule t w) tr e) : FiredRight C l r w e := by
  have hl : rule.body.lhs = .ok l := by rw [h.body]
  have hrr : rule.body.rhs = .ok r := by rw [h.body]
  have hrc : ∀ p ∈ r, ∃ b c, p = (⟨'=', b⟩, .chunk c) ∧ KnownChunk w.reg c := by
    rintro ⟨⟨k, b⟩, v⟩ hp
    have hk := h.modifying.only _ _ hp
    simp only at hk
    subst hk
    obtain ⟨c, rfl, hc⟩ := h.chunks.rhs _ _ hp (by simp)
    exact ⟨b, c, rfl, hc⟩
  have hlc : ∀ b v, ((⟨'=', b⟩ : Key), v) ∈ l → ∃ c, v = LVal.chunk c := by
    intro b v hp
    obtain ⟨c, rfl, _⟩ := h.chunks.lhs _ _ hp (by simp)
    exact ⟨c, rfl⟩
  obtain ⟨hiff, hbv⟩ := C28_partial cf dataDomain w.faces l h.buffers h.patterns h.names
  unfold genTest at hr
  simp only [genM_bind_apply, hl, genM_lift_ok, out_bind_ret, h.vars] at hr
  rcases ht : lhsTest C.P.H w.faces l BV.init with x | o
  · rw [genM_act_error (w' := w) (e := x) (by rw [h.vars, ht])] at hr
    cases hr
    refine ⟨fun hσ => ?_, fun _ w' hw' => by cases hw'⟩
    obtain ⟨bv, hs⟩ := hiff.2 hσ
    rw [ht] at hs; cases hs
  · rw [genM_act_ok (w' := w) (a := o) (by rw [h.vars, ht])] at hr
    cases o with
    | none =>
      refine ⟨fun hσ => ?_, fun _ w' hw' => ?_⟩
      · obtain ⟨bv, hs⟩ := hiff.2 hσ
        rw [ht] at hs; cases hs
      · simp only [out_bind_ret, genM_event_apply] at hr
        subst hw'
        cases hr with
        | yield hu hr => cases hr; exact faces_of_bufs hu.bufs
    | some bv =>
      obtain ⟨hH, _⟩ := hbv bv ht
      refine ⟨fun _ => ?_, fun hno => absurd ⟨_, hH⟩ hno⟩
      simp only [out_bind_ret, genM_bind_apply, genM_set_apply] at hr
      rcases genFire_runs hr with ⟨w1, hsame, hcur, tr', hr'⟩ | rfl | ⟨w', x, rfl, h1, h2⟩
      · have hbuf : ∀ b, w1.buf b = w.buf b := fun b => by
          have := hsame.bufs
          unfold Mach.buf; rw [this]
        have hreg : w1.reg = w.reg := hsame.reg
        have hwbv : w1.bv = bv := hsame.bv
        obtain ⟨rule1, hrule1, hbody1⟩ := hsame.rules name rule h.known
        have hused : w1.usedName = some name := hsame.usedName.trans h.used
        have hl1 : rule1.body.lhs = .ok l := by rw [hbody1]; exact hl
        have hslots : ∀ b, ∃ ds, lhsSlots w1 b = .ok ds := by
          intro b
          unfold lhsSlots
          simp only [hused, hrule1, hl1]
          cases hk : klook ⟨'=', b⟩ l with
          | none => exact ⟨_, rfl⟩
          | some v =>
            obtain ⟨c, rfl⟩ := hlc b v (mem_of_klook hk)
            exact ⟨_, rfl⟩
        obtain ⟨hno, hret⟩ := genRhs_runs (σ := bv.get) cf hrr (by rw [hreg]; exact h.reach) (by rw [hwbv]; exact hH.data) h.dictR (by
          intro p hp
          obtain ⟨b, c, rfl, hknown⟩ := hrc p hp
          obtain ⟨f, d, g1, g2, g3, g4, g5⟩ := h.ready b c hp
          obtain ⟨ds, hds⟩ := hslots b
          refine ⟨b, c, f, d, ds, rfl, ⟨(hbuf b).trans g1, g3, g4, by rw [hreg]; exact hknown, by rw [hreg]; exact g5, ?_, ?_, ?_⟩, fun _ => hds⟩
          · intro n x hx
            exact ⟨h.modifying.acts b c n x hp hx, h.literals b c n x hp hx⟩
          · intro n x y hx hy
            have hpos := h.modifying.bound b c n x y hp hx hy
            obtain ⟨v, hv⟩ := holds_bound hH hpos (by
              rcases (h.modifying.acts b c n x hp hx).one with ⟨h0, _⟩ | ⟨_, z, hz, hxz⟩
              · rw [hy] at h0; cases h0
              · rw [hy] at hxz; cases hxz; exact hz)
            exact ⟨v, by rw [hwbv]; exact hv, hv, h.values _ hH y v hpos hv⟩
          · intro hcls n x hx
            exact hv b c f n x hp g1 hcls hx) hr'
        refine ⟨fun w' x he => absurd he (hno w' x), fun w' he => ?_⟩
        have hM := hret w' he
        have hfaces : w1.faces = w.faces := faces_of_bufs hsame.bufs
        refine ⟨⟨bv.get, hH, ?_⟩, fun hc => ?_⟩
        · rw [← hfaces]
          refine modifications_modified hM (fun b c f hm hb => ?_)
          obtain ⟨f', d, g1, g2, _⟩ := h.ready b c hm
          rw [hbuf b, g1] at hb; cases hb; exact g2
        · have hkeys : w1.curSlots.map Prod.fst = w.bufs.map Prod.fst := by
            rw [hcur, ← show w1.bufs = w.bufs from hsame.bufs]
            simp [Mach.noSlots, Function.comp_def]
          refine ⟨?_, (hM.slotKeys hc (fun b c hm => ?_)).trans hkeys⟩
          swap
          · obtain ⟨f, _, g1, _⟩ := h.ready b c hm
            rw [hkeys]
            exact mem_keys_iff.2 ⟨f, g1⟩
          refine modifications_recorded hM hc (by rw [show w1.bufs = w.bufs from hsame.bufs]; exact h.dict) hcur hused hrule1 hl1 h.dictL h.patterns hlc ?_
          intro b c hm
          obtain ⟨b', c', heq, hk⟩ := hrc _ hm
          cases heq
          exact hk.1
      · exact ⟨by simp, by simp⟩
      · refine ⟨fun _ _ _ => ⟨h1, h2⟩, by simp⟩

/-- C68 and C67 together: a first rule fired, and what was noted about it was used to compile it with a second rule. Whenever the
compiled rule fires later on, the two rules could have fired one after the other, with the same result. -/
theorem C68_compiled_partial (C : Cfg) (n1 n2 name : String) (rule1 rule : CRule) (l1 l2 lhs : List (Key × LVal))
    (r1 r2 rhs : List (Key × RVal)) (t t' : ℚ) (w w' v v' : Mach) (tr tr' : List (Mach × YV)) (bufs : List (String × CBuf))
    (cf : C.P.H.CollisionFree) (hc : C.compilation = true)
    (h1 : AboutToFire C n1 rule1 l1 r1 w) (hv1 : NoVarsInLocations r1 w) (hσ1 : ∃ σ, RuleHolds DataVal w.faces l1 σ)
    (hr1 : Runs Undisturbed (genTest C n1 rule1 t w) tr (.ret w' ()))
    (hn : newRule C.P v.reg n2 ⟨.ok l1, .ok r1⟩ ⟨.ok l2, .ok r2⟩ w'.curSlots bufs = .ok (some ⟨.ok lhs, .ok rhs⟩))
    (h : RegularPair C.P v.reg l1 r1 l2 r2 w'.curSlots DataVal v.faces) (hm1 : ModifyingRule v.reg l1 r1) (hm2 : ModifyingRule v.reg l2 r2)
    (hf : Furnished l1 r1 l2 r2 v.faces) (hA : AskAlike l1 r1 l2) (hT : TestAlike v.reg l1 l2)
    (hF : FitTogether n2 l1 r1 l2 r2 w'.curSlots)
    (h2 : AboutToFire C name rule lhs rhs v) (hv2 : NoVarsInLocations rhs v) (hσ2 : ∃ σ, RuleHolds DataVal v.faces lhs σ)
    (hr2 : Runs Undisturbed (genTest C name rule t' v) tr' (.ret v' ())) :
    ∃ faces', Fires DataVal l1 r1 v.faces faces' ∧ Fires DataVal l2 r2 faces' v'.faces := by
  have hrec := ((((C68_partial C n1 rule1 l1 r1 t w tr _ cf h1 hv1 hr1).1 hσ1).2 w' rfl).2 hc).1
  have hfire := (((C68_partial C name rule lhs rhs t' v tr' _ cf h2 hv2 hr2).1 hσ2).2 v' rfl).1
  exact C67_partial C.P v.reg n2 l1 l2 lhs r1 r2 rhs w'.curSlots bufs v.faces v'.faces h hm1 hm2 hrec hf hA hT hF hn hfire

/-! ## Examples and refutations -/

theorem exCompReg_reach (H : PyHash) : Reach (exPy H).toPyEnv exCompReg := by
  have : chunktype (exPy H).toPyEnv [] "goal" (.names ["state"]) [] = .ok exCompReg := by
    have e : sortFields (FieldArg.names ["state"]).list = ["state"] := by decide +kernel
    simp only [chunktype, e]
    rfl
  exact Reach.type .empty this

/-- A model with or without compilation. -/
noncomputable def exFireCfg (H : PyHash) (b : Bool) : Cfg := { exCfg (exPy H) with compilation := b }

/-- A rule that puts the state of `g` into `h`. -/
def exCopy : CRule := ⟨⟨.ok (exTestOf "g" (exVar "x")), .ok (exPutIn "h" (exVar "x"))⟩, 0, Option.none⟩

/-- A rule has been selected; `h` is a buffer of the given class with the given state. -/
def exFireMachOf (name : String) (rule : CRule) (cls : BufClass) (t : String) : Mach :=
  { exMach exCompReg [("g", { exBuf .goal with data := [exGoal (exLit "a")] }), ("h", { exBuf cls with data := [exGoal (exLit t)] })] with
    rules := [(name, rule)], ordered := [name], usedName := some name }

/-- The rule that copies has been selected. -/
def exFireMach (cls : BufClass) : Mach := exFireMachOf "copy" exCopy cls "b"

theorem exCopy_rule : ExRule (exTestOf "g" (exVar "x")) (exPutIn "h" (exVar "x")) :=
  exTestOf_rule (exSlot_var (by decide) (by decide) (by decide)) (exSlot_var (by decide) (by decide) (by decide)) (Or.inl rfl) (Or.inr rfl)
    (fun _ h => h)

theorem exFire_data {name : String} {rule : CRule} {cls : BufClass} {t n : String} {f : BufFace} {d : Chunk} {rest : List Chunk}
    (hf : alook n (exFireMachOf name rule cls t).faces = some f) (hd : f.data = d :: rest) :
    (n = "g" ∧ d = exGoal (exLit "a")) ∨ n = "h" ∧ d = exGoal (exLit t) := by
  simp only [exFireMachOf, exMach, Mach.faces, List.map_cons, List.map_nil, alook] at hf
  split at hf
  · cases hf; cases hd; exact Or.inl ⟨by symm; assumption, rfl⟩
  · split at hf
    · cases hf; cases hd; exact Or.inr ⟨by symm; assumption, rfl⟩
    · cases hf

/-- Rules of the examples that have one variable only. -/
structure ExOne (t : String) (l : List (Key × LVal)) (r : List (Key × RVal)) : Prop where
  rule : ExRule l r
  lhs : ∀ k v, (k, v) ∈ l → v = .chunk (exGoal (exVar "x")) ∧ (k = ⟨'=', "g"⟩ ∨ (k = ⟨'=', "h"⟩ ∧ t = "a"))
  rhs : ∀ k v, (k, v) ∈ r → v = .chunk (exGoal (exVar "x"))

theorem exFire_holds {t : String} {l : List (Key × LVal)} {r : List (Key × RVal)} (h : ExOne t l r) (name : String) (rule : CRule) (cls : BufClass) :
    RuleHolds DataVal (exFireMachOf name rule cls t).faces l (exAssign "a" t "a" "") := by
  refine ⟨exAssign_data _ _ _ _, ?_⟩
  rintro ⟨k, v⟩ hp
  obtain ⟨rfl, rfl | ⟨rfl, rfl⟩⟩ := h.lhs k v hp
  · exact .test (b := ⟨_, _⟩) (d := exGoal (exLit "a")) (r := []) rfl rfl (exGoal_cond (Or.inr ⟨"x", by decide, rfl, rfl⟩))
      ⟨_, rfl, by simp [SameVal, Chunk.val]⟩
  · exact .test (b := ⟨_, _⟩) (d := exGoal (exLit "a")) (r := []) rfl rfl (exGoal_cond (Or.inr ⟨"x", by decide, rfl, rfl⟩))
      ⟨_, rfl, by simp [SameVal, Chunk.val]⟩

theorem exFire_ready {H : PyHash} (cf : H.CollisionFree) (cls : BufClass) (b : Bool) {name t : String} {rule : CRule} {l : List (Key × LVal)}
    {r : List (Key × RVal)} (hb : rule.body = ⟨.ok l, .ok r⟩) (h : ExOne t l r) :
    AboutToFire (exFireCfg H b) name rule l r (exFireMachOf name rule cls t) := by
  have hreg := exRule_regular_of cf h.rule h.rule (sv := []) (by simp) (s := "a") (t := t)
    (faces := (exFireMachOf name rule cls t).faces) (fun _ _ _ _ hf hd => exFire_data hf hd)
  have hslot : ∀ {n p m x}, ((⟨'=', n⟩ : Key), LVal.chunk p) ∈ l → (m, SlotOf.vv x) ∈ p.slots → m = "state" ∧ x = exVar "x" := by
    intro n p m x hp hm
    obtain ⟨e, _⟩ := h.lhs _ _ hp
    cases e
    simpa [exGoal] using hm
  have hpos : ∀ y, PosVar l y → y = "x" := by
    rintro y ⟨n, p, m, x, hp, hm, hx⟩
    obtain ⟨_, rfl⟩ := hslot hp hm
    simpa [exVar, eq_comm] using hx
  refine ⟨rfl, by simp [exFireMachOf, alook], hb, rfl, exCompReg_reach H, by simp [exFireMachOf, exMach], h.rule.keysL, h.rule.keysR, hreg.good1,
    exRule_modifying h.rule, hreg.patterns1, ?_, hreg.buffers1, ?_, ?_, ?_⟩
  · refine ⟨?_, ?_, ?_, ?_⟩
    · intro n p m x hp hm hx
      obtain ⟨_, rfl⟩ := hslot hp hm
      simp [exVar] at hx
      subst hx
      rcases (h.lhs _ _ hp).2 with e | ⟨e, _⟩ <;> simp at e
    · rintro n _ ⟨n', p, m, x, hp, hm, hx⟩
      obtain ⟨_, rfl⟩ := hslot hp hm
      simp [exVar] at hx
    · intro y hy
      rw [hpos y hy]
      exact Or.inl ⟨'x', rfl⟩
    · intro n p m x hp hm hx
      obtain ⟨_, rfl⟩ := hslot hp hm
      simp [exVar] at hx
  · intro b c hm
    have hc := h.rhs _ _ hm
    cases hc
    obtain ⟨_, _, e, hn, _⟩ := h.rule.rhs _ _ hm
    cases e
    rcases hn with rfl | rfl
    · refine ⟨_, exGoal (exLit "a"), rfl, rfl, rfl, exData_data (exGoal_data _), fun n => ?_⟩
      simp [exGoal, HasField, exFireMachOf, exMach, exCompReg, alook]
    · refine ⟨_, exGoal (exLit t), rfl, rfl, rfl, exData_data (exGoal_data _), fun n => ?_⟩
      simp [exGoal, HasField, exFireMachOf, exMach, exCompReg, alook]
  · intro b c n x hm hx
    have hc := h.rhs _ _ hm
    cases hc
    simp [exGoal] at hx
    obtain ⟨rfl, rfl⟩ := hx
    simp [exVar]
  · rintro σ hσ y v ⟨n, p, m, x, hp, hm, hx⟩ hv
    obtain ⟨hpe, hk⟩ := h.lhs _ _ hp
    cases hσ.conds _ hp with
    | @test _ _ _ d _ hb' hd hc _ =>
      cases hpe
      have hd' : d = exGoal (exLit "a") := by
        rcases exFire_data hb' hd with ⟨_, rfl⟩ | ⟨rfl, rfl⟩
        · rfl
        · rcases hk with e | ⟨_, rfl⟩
          · simp at e
          · rfl
      subst hd'
      obtain ⟨rfl, rfl⟩ := hslot hp hm
      cases hx
      obtain ⟨u, hu, hs⟩ := hc.pos "state" (exVar "x") "x" (.str "a") hm rfl (by decide)
        (SlotHas.val (x := exLit "a") (by simp [exGoal]))
      rw [hv] at hu; cases hu
      cases v with
      | none => simp [SameVal] at hs
      | empty => simp [SameVal] at hs
      | str s => simp only [SameVal] at hs; subst hs; simp [Placeable, Blank]
      | chunk t sl => simp [SameVal] at hs

/-- Undisturbed, a generator comes to its end. -/
theorem solo_not_cut (o : Out Mach YV Unit) : o.solo.2 ≠ .cut := by
  have : ∀ (o : Out Mach YV Unit) k, (o.under (fun _ w => w) k).2 ≠ .cut := by
    intro o
    induction o with
    | yield w y k ih => intro n; rw [Out.under]; exact ih _ _
    | ret w a => intro n; rw [Out.under]; simp
    | raise w x => intro n; rw [Out.under]; simp
  exact this o 0

theorem exFire_ends {H : PyHash} (cf : H.CollisionFree) (b : Bool) {name t : String} {rule : CRule} {l : List (Key × LVal)}
    {r : List (Key × RVal)} (hb : rule.body = ⟨.ok l, .ok r⟩) (h : ExOne t l r) (q : ℚ) :
    NoVarsInLocations r (exFireMachOf name rule .goal t) ∧
    ∃ tr w', Runs Undisturbed (genTest (exFireCfg H b) name rule q (exFireMachOf name rule .goal t)) tr (.ret w' ()) := by
  have hno : NoVarsInLocations r (exFireMachOf name rule .goal t) := by
    intro b c f _ _ hm hf hcls _
    obtain ⟨_, _, e, hn, _⟩ := h.rule.rhs _ _ hm
    cases e
    rcases hn with rfl | rfl <;> · cases hf; cases hcls
  refine ⟨hno, ?_⟩
  have hrun := runs_solo (Rel := Undisturbed) (fun w => ⟨rfl, rfl, rfl, rfl, rfl, rfl⟩) (genTest (exFireCfg H b) name rule q (exFireMachOf name rule .goal t))
  have hcut := solo_not_cut (genTest (exFireCfg H b) name rule q (exFireMachOf name rule .goal t))
  have hfr := C68_partial (exFireCfg H b) name rule _ r q _ _ _ cf (exFire_ready cf .goal b hb h) hno hrun
  generalize (genTest (exFireCfg H b) name rule q (exFireMachOf name rule .goal t)).solo.2 = e at hrun hcut hfr
  cases e with
  | ret w' u => exact ⟨_, w', hrun⟩
  | raise w' x => exact absurd rfl ((hfr.1 ⟨_, exFire_holds h _ _ _⟩).1 w' x rfl).2
  | cut => exact absurd rfl hcut

theorem exCopy_one : ExOne "b" (exTestOf "g" (exVar "x")) (exPutIn "h" (exVar "x")) := by
  refine ⟨exCopy_rule, fun k v hm => ?_, fun k v hm => ?_⟩
  · simp [exTestOf] at hm
    exact ⟨hm.2, Or.inl hm.1⟩
  · simp [exPutIn] at hm
    exact hm.2

/-- The values of the variables after the test. -/
def exFireBV : BV := (BV.init.bind "x" (.str "a")).bind "g" (exGoal (exLit "a")).val

/-- The rule is tested and fires. -/
theorem exFire_start {H : PyHash} (cf : H.CollisionFree) (cls : BufClass) (t : ℚ) :
    genTest (exCfg (exPy H)) "copy" exCopy t (exFireMach cls) =
      .yield { exFireMach cls with bv := exFireBV, curSlots := [("g", .nothing), ("h", .nothing)] } (.ev ⟨round4 t, procName, .fired "copy"⟩)
        (genRhs (exCfg (exPy H)) "copy" exCopy t) := by
  have ht : lhsTest (exPy H).H (exFireMach cls).faces (exTestOf "g" (exVar "x")) BV.init = .ok (some exFireBV) :=
    exShared_test_faces (H := H) cf 'x' (f := ⟨[exGoal (exLit "a")], _⟩) rfl rfl
  unfold genTest
  rw [show exCopy.body.lhs = .ok (exTestOf "g" (exVar "x")) from rfl]
  simp only [genM_bind_apply, genM_lift_ok, out_bind_ret]
  rw [genM_act_ok (w' := exFireMach cls) (a := some exFireBV)
    (show (exFireMach cls, lhsTest (exPy H).H (exFireMach cls).faces (exTestOf "g" (exVar "x")) BV.init) = _ by rw [ht])]
  rfl

/-- Its action fails if `h` is the buffer of visual locations: `VisualLocation.modify` does not get the values of the variables. -/
theorem exFire_fails {H : PyHash} (t : ℚ) :
    ∃ w', genRhs (exCfg (exPy H)) "copy" exCopy t { exFireMach .visualLocation with bv := exFireBV, curSlots := [("g", .nothing), ("h", .nothing)] } =
      .raise w' .actr := by
  have h1 : removeUnused H (exGoal (exVar "x")) = [("state", ⟨.none, some "x", [], []⟩)] := by
    simp [removeUnused, exGoal, exVar, optStrTruthy]
  have h2 : checkBoundVars (exPy H) BV.init true (.vv ⟨.none, some "x", [], []⟩) = .error .actr := by
    simp [checkBoundVars_eq, splitting, cbvValues, CbvState.init, Val.truthy, cbvCombine_none, cbvVars, optStrTruthy,
      BV.get, BV.init, alook, Except.bind]
  have h3 : (exPy H).H = H := rfl
  have hm : ∀ st : BState, st.data = [exGoal (exLit "b")] → st.modify (exPy H) (exGoal (exVar "x")) BV.init = ({ st with data := [] }, .error .actr) := by
    intro st hst
    simp [BState.modify, hst, h3, h1, resolveAll, h2]
  generalize hw : ({ exFireMach .visualLocation with bv := exFireBV, curSlots := [("g", .nothing), ("h", .nothing)] } : Mach) = w
  obtain ⟨w', hw'⟩ : ∃ w', modifyBuf (exCfg (exPy H)) "h" (exGoal (exVar "x")) exFireBV ((w.setState "h" .busy).setState "h" .busy) =
      (w', .error .actr) := by
    subst hw
    unfold modifyBuf
    rw [show (Mach.buf _ "h") = some { exBuf .visualLocation with data := [exGoal (exLit "b")], state := .busy } from rfl]
    simp only [exBuf, if_true]
    unfold Mach.onBuf
    rw [show (Mach.buf _ "h") = some { exBuf .visualLocation with data := [exGoal (exLit "b")], state := .busy } from rfl]
    simp only
    rw [show (exCfg (exPy H)).P = exPy H from rfl, hm _ rfl]
    exact ⟨_, rfl⟩
  refine ⟨w', ?_⟩
  unfold genRhs genUpdate
  rw [show exCopy.body.rhs = .ok (exPutIn "h" (exVar "x")) from rfl]
  have hs : sortRhs (exPutIn "h" (exVar "x")) = .ok (exPutIn "h" (exVar "x")) := rfl
  simp only [genM_bind_apply, genM_lift_ok, out_bind_ret, genM_get_apply, hs]
  have hu : updateLoop (exCfg (exPy H)) t (exPutIn "h" (exVar "x")) w.bv w = .raise w' .actr := by
    unfold exPutIn
    rw [updateLoop]
    simp only [genM_bind_apply]
    rw [genM_act_ok (w' := w) (a := ()) (by subst hw; rfl)]
    simp only [out_bind_ret, genM_get_apply, genM_set_apply]
    rw [show interruptible (⟨'=', "h"⟩ : Key).code = false from rfl]
    simp only [Bool.false_eq_true, if_false, genM_bind_apply, genM_get_apply, genM_set_apply, out_bind_ret]
    rw [show immediate (exCfg (exPy H)) ⟨'=', "h"⟩ (.chunk (exGoal (exVar "x"))) w.bv t = genModify (exCfg (exPy H)) "h" (.chunk (exGoal (exVar "x"))) w.bv t from rfl]
    unfold genModify recordModify
    simp only [genM_bind_apply, genM_set_apply, out_bind_ret, RVal.asChunk, genM_lift_ok]
    rw [genM_act_ok (w' := ((w.setState "h" .busy).setState "h" .busy)) (a := ()) rfl]
    simp only [out_bind_ret, genM_bind_apply]
    rw [show w.bv = exFireBV by subst hw; rfl, genM_act_error hw']
    rfl
  rw [hu]
  rfl

/-- C68 is false: the buffer of visual locations cannot be modified with a variable. -/
theorem C68_refuted : ¬ C68_full := by
  obtain ⟨H, cf⟩ := exists_collisionFree
  intro h
  obtain ⟨w', hw'⟩ := exFire_fails (H := H) 0
  have hrun : ∃ tr, Runs Undisturbed (genTest (exCfg (exPy H)) "copy" exCopy 0 (exFireMach .visualLocation)) tr (.raise w' .actr) := by
    rw [exFire_start cf]
    refine ⟨_, .yield (l := []) ⟨rfl, rfl, rfl, rfl, rfl, rfl⟩ ?_⟩
    rw [hw']
    exact .raise
  obtain ⟨tr, hrun⟩ := hrun
  have := ((h (exCfg (exPy H)) "copy" exCopy _ _ 0 _ _ _ cf (exFire_ready cf .visualLocation false rfl exCopy_one) hrun).1 ⟨_, exFire_holds exCopy_one _ _ _⟩).1 w' _ rfl
  exact absurd this.1 (by simp [exCfg])

/-- The conditions can be met, with compilation: the rule copies the state of one goal into another. -/
example : ∃ (C : Cfg) (w : Mach), C.P.H.CollisionFree ∧ C.compilation = true ∧
    AboutToFire C "copy" exCopy (exTestOf "g" (exVar "x")) (exPutIn "h" (exVar "x")) w ∧ NoVarsInLocations (exPutIn "h" (exVar "x")) w ∧
    (∃ σ, RuleHolds DataVal w.faces (exTestOf "g" (exVar "x")) σ) ∧
    ∃ tr w', Runs Undisturbed (genTest C "copy" exCopy 0 w) tr (.ret w' ()) := by
  obtain ⟨H, cf⟩ := exists_collisionFree
  obtain ⟨h1, h2⟩ := exFire_ends cf true (name := "copy") (rule := exCopy) rfl exCopy_one 0
  exact ⟨exFireCfg H true, exFireMach .goal, cf, rfl, exFire_ready cf .goal true rfl exCopy_one, h1, ⟨_, exFire_holds exCopy_one _ _ _⟩, h2⟩

/-- What the compiled rule does. -/
def exCopiesRhs : List (Key × RVal) := [(⟨'=', "g"⟩, .chunk (exGoal (exVar "x"))), (⟨'=', "h"⟩, .chunk (exGoal (exVar "x")))]

/-- The conditions of `C68_compiled_partial` can be met: the first rule copies the state of `g` to `h`, the second one that of `h` to
`g`, and the rule compiled from what was noted when the first one fired fires. -/
example : ∃ (C : Cfg) (rule : CRule) (w w' v v' : Mach) (tr tr' : List (Mach × YV)),
    let l1 := exTestOf "g" (exVar "x"); let r1 := exPutIn "h" (exVar "x")
    let l2 := exTestOf "h" (exVar "y"); let r2 := exPutIn "g" (exVar "y"); let lhs := exBoth (exVar "x") (exVar "x")
    C.P.H.CollisionFree ∧ C.compilation = true ∧ AboutToFire C "copy" exCopy l1 r1 w ∧ NoVarsInLocations r1 w ∧
    (∃ σ, RuleHolds DataVal w.faces l1 σ) ∧ Runs Undisturbed (genTest C "copy" exCopy 0 w) tr (.ret w' ()) ∧
    newRule C.P v.reg "r2" ⟨.ok l1, .ok r1⟩ ⟨.ok l2, .ok r2⟩ w'.curSlots exCBufs = .ok (some ⟨.ok lhs, .ok exCopiesRhs⟩) ∧
    RegularPair C.P v.reg l1 r1 l2 r2 w'.curSlots DataVal v.faces ∧ ModifyingRule v.reg l1 r1 ∧ ModifyingRule v.reg l2 r2 ∧
    Furnished l1 r1 l2 r2 v.faces ∧ AskAlike l1 r1 l2 ∧ TestAlike v.reg l1 l2 ∧ FitTogether "r2" l1 r1 l2 r2 w'.curSlots ∧
    AboutToFire C "copy and r2" rule lhs exCopiesRhs v ∧ NoVarsInLocations exCopiesRhs v ∧ (∃ σ, RuleHolds DataVal v.faces lhs σ) ∧
    Runs Undisturbed (genTest C "copy and r2" rule 1 v) tr' (.ret v' ()) := by
  obtain ⟨H, cf⟩ := exists_collisionFree
  have vx : ExSlot (exVar "x") := exSlot_var (by decide) (by decide) (by decide)
  have vy : ExSlot (exVar "y") := exSlot_var (by decide) (by decide) (by decide)
  have hr2 : ExRule (exTestOf "h" (exVar "y")) (exPutIn "g" (exVar "y")) := exTestOf_rule vy vy (by simp) (by simp) (fun _ h => h)
  have hcomp : ExOne "a" (exBoth (exVar "x") (exVar "x")) exCopiesRhs := by
    refine ⟨⟨by simp [exBoth], by simp [exCopiesRhs], (exBoth_rule vx vx vx (Or.inl rfl) (fun _ h => h)).lhs, fun k v hm => ?_⟩, fun k v hm => ?_,
      fun k v hm => ?_⟩
    · have hpos : ∀ y, (exVar "x").vars = some y → PosVar (exBoth (exVar "x") (exVar "x")) y := fun y hy =>
        ⟨"g", exGoal (exVar "x"), "state", exVar "x", by simp [exBoth], by simp [exGoal], hy⟩
      simp [exCopiesRhs] at hm
      rcases hm with h | h
      · exact ⟨"g", exVar "x", h.1, by simp, h.2, vx, hpos⟩
      · exact ⟨"h", exVar "x", h.1, by simp, h.2, vx, hpos⟩
    · simp [exBoth] at hm
      rcases hm with h | h
      · exact ⟨h.2, Or.inl h.1⟩
      · exact ⟨h.2, Or.inr ⟨h.1, rfl⟩⟩
    · simp [exCopiesRhs] at hm
      rcases hm with h | h <;> exact h.2
  obtain ⟨hn1, tr, w', hrun1⟩ := exFire_ends cf true (name := "copy") (rule := exCopy) rfl exCopy_one 0
  have hready1 := exFire_ready cf .goal true (name := "copy") (rule := exCopy) rfl exCopy_one
  generalize hrule : (⟨⟨.ok (exBoth (exVar "x") (exVar "x")), .ok exCopiesRhs⟩, 0, Option.none⟩ : CRule) = rule
  have hbody : rule.body = ⟨.ok (exBoth (exVar "x") (exVar "x")), .ok exCopiesRhs⟩ := by rw [← hrule]
  obtain ⟨hn2, tr', v', hrun2⟩ := exFire_ends cf true (name := "copy and r2") (rule := rule) hbody hcomp 1
  -- what is noted when the first rule fires
  have hcur : w'.curSlots = exSVof "h" "g" (exVar "x") := by
    obtain ⟨hrec, hkeys⟩ := (((C68_partial _ _ _ _ _ _ _ _ _ cf hready1 hn1 hrun1).1 ⟨_, exFire_holds exCopy_one _ _ _⟩).2 w' rfl).2 rfl
    obtain ⟨d, hd, hnd, hgiven, hother⟩ := hrec.acted "h" (exGoal (exVar "x")) (by simp [exPutIn])
    have hg : alook "g" w'.curSlots = some .nothing := by
      rcases hrec.rest "g" (by simp [exPutIn]) with h | h
      · exfalso
        have : "g" ∈ w'.curSlots.map Prod.fst := by rw [hkeys]; simp [exFireMachOf, exMach]
        obtain ⟨x, hx⟩ := mem_keys_iff.1 this
        rw [h] at hx; cases hx
      · exact h
    have hdd : d = [("state", .vv (exVar "x"))] := by
      have h1 := hgiven "state" (exVar "x") (by simp [exGoal])
      have h2 : ∀ n, n ≠ "state" → alook n d = Option.none := fun n hn =>
        (hother n (by simp [exGoal, hn])).2 (by simp [exTestOf])
      have hall : ∀ p ∈ d, p.1 = "state" := by
        rintro ⟨n, s⟩ hp
        by_contra hn
        have := h2 n hn
        rw [alook_none_iff] at this
        exact this _ hp
      match d, hnd, h1, hall with
      | [], _, h1, _ => cases h1
      | [(n, s)], _, h1, hall =>
        have := hall _ (List.mem_singleton.2 rfl)
        simp only at this
        subst this
        simp only [alook, if_true] at h1
        cases h1; rfl
      | p :: q :: r, hnd, _, hall =>
        have e1 := hall p (by simp)
        have e2 := hall q (by simp)
        simp [e1, e2] at hnd
    subst hdd
    generalize w'.curSlots = sv at hkeys hd hg
    match sv, hkeys with
    | [(n, s), (m, u)], hkeys =>
      simp only [List.map_cons, List.map_nil, exFireMachOf, exMach, List.cons.injEq, and_true] at hkeys
      obtain ⟨rfl, rfl⟩ := hkeys
      simp [alook] at hd hg
      subst hd hg
      rfl
  refine ⟨exFireCfg H true, rule, exFireMach .goal, w', exFireMachOf "copy and r2" rule .goal "a", v', tr, tr', cf, rfl, hready1, hn1,
    ⟨_, exFire_holds exCopy_one _ _ _⟩, hrun1, ?_, ?_, exRule_modifying exCopy_rule, exRule_modifying hr2, ?_, exRule_ask exCopy_rule,
    exRule_test exCopy_rule hr2, ?_, exFire_ready cf .goal true hbody hcomp, hn2, ⟨_, exFire_holds hcomp _ _ _⟩, hrun2⟩
  · rw [hcur]
    exact newRule_steps (l2 := exTestOf "h" (exVar "y__rule__r2")) (sv' := exSVof "h" "g" (exVar "x"))
      (st := ⟨[("y__rule__r2", "x"), ("x", "x")], []⟩) (sv'' := exSVof "h" "g" (exVar "x")) rfl rfl rfl rfl rfl rfl
  · rw [hcur]
    exact exRule_regular_of cf exCopy_rule hr2 (exSVof_fine vx) (s := "a") (t := "a") (fun _ _ _ _ hf hd => exFire_data hf hd)
  · exact exRule_furnished_of exCopy_rule hr2 (s := "a") (t := "a") (fun _ _ _ _ hf hd => exFire_data hf hd)
  · rw [hcur]
    exact exCopies_fit _

end Verif.Props
