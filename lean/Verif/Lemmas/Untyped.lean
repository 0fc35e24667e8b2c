import Verif.Spec.Untyped
/-!
# Forgetting type names commutes with comparison, matching and retrieval
-/
namespace Verif
open Spec

theorem bareVals_map (l : List Val) : bareVals l = l.map bareVal := by
  induction l with
  | nil => simp [bareVals]
  | cons v r ih => simp [bareVals, ih]

theorem bareSlots_map (l : Slots) : bareSlots l = l.map (fun p => (p.1, bareSlot p.2)) := by
  induction l with
  | nil => simp [bareSlots]
  | cons v r ih => obtain ⟨n, s⟩ := v; simp [bareSlots, ih]

mutual
theorem view_bareVal (H : PyHash) : (v : Val) → (bareVal v).view H = v.view H
  | .none => rfl
  | .empty => rfl
  | .str _ => rfl
  | .chunk _ sl => by simp only [bareVal, Val.view, viewSlots_bare H sl]
theorem viewSlots_bare (H : PyHash) : (l : List (String × SlotOf Val)) → viewSlots H (bareSlots l) = viewSlots H l
  | [] => rfl
  | (n, s) :: r => by simp only [bareSlots, viewSlots, viewSlot_bare H s, viewSlots_bare H r]
theorem viewSlot_bare (H : PyHash) : (s : SlotOf Val) → viewSlot H (bareSlot s) = viewSlot H s
  | .empty => rfl
  | .vv ⟨v, vr, nv, nvr⟩ => by simp only [bareSlot, viewSlot, view_bareVal H v, viewVals_bare H nv]
theorem viewVals_bare (H : PyHash) : (l : List Val) → viewVals H (bareVals l) = viewVals H l
  | [] => rfl
  | v :: r => by simp only [bareVals, viewVals, view_bareVal H v, viewVals_bare H r]
end

theorem pyEq_bare (H : PyHash) (a b : Val) : pyEq H (bareVal a) (bareVal b) = pyEq H a b := by
  simp only [pyEq, view_bareVal]

theorem pyEq_bare_left (H : PyHash) (a b : Val) : pyEq H (bareVal a) b = pyEq H a b := by
  simp only [pyEq, view_bareVal]

theorem pyEq_bare_right (H : PyHash) (a b : Val) : pyEq H a (bareVal b) = pyEq H a b := by
  simp only [pyEq, view_bareVal]

theorem keyEq_bare_left (H : PyHash) (a b : Val) : keyEq H (bareVal a) b = keyEq H a b := by
  simp only [keyEq, view_bareVal]

theorem keyEq_bare_right (H : PyHash) (a b : Val) : keyEq H a (bareVal b) = keyEq H a b := by
  simp only [keyEq, view_bareVal]

theorem truthy_bare (v : Val) : (bareVal v).truthy = v.truthy := by
  cases v with
  | chunk t sl => cases sl with
    | nil => rfl
    | cons p r => obtain ⟨n, s⟩ := p; rfl
  | _ => rfl

theorem bare_val (c : Chunk) : (bare c).val = bareVal c.val := by simp only [bare, Chunk.val, bareVal]

theorem alook_mapped {α β : Type} (f : α → β) (n : String) (l : List (String × α)) :
    alook n (l.map (fun p => (p.1, f p.2))) = (alook n l).map f := by
  induction l with
  | nil => rfl
  | cons p r ih => obtain ⟨m, a⟩ := p; simp only [List.map_cons, alook, ih]; split <;> rfl

theorem aset_mapped {α β : Type} (f : α → β) (n : String) (a : α) (l : List (String × α)) :
    aset n (f a) (l.map (fun p => (p.1, f p.2))) = (aset n a l).map (fun p => (p.1, f p.2)) := by
  induction l with
  | nil => rfl
  | cons p r ih => obtain ⟨m, b⟩ := p; simp only [List.map_cons, aset, ih]; split <;> rfl

theorem get_bare (bv : BV) (n : String) : (bareBV bv).get n = (bv.get n).map bareVal := alook_mapped _ _ _

theorem negGet_bare (bv : BV) (n : String) : (bareBV bv).negGet n = (bv.negGet n).map bareVal := by
  simp only [BV.negGet, bareBV, alook_mapped]
  cases alook n bv.neg <;> rfl

theorem bind_bare (bv : BV) (n : String) (v : Val) : (bareBV bv).bind n (bareVal v) = bareBV (bv.bind n v) := by
  simp only [BV.bind, bareBV, aset_mapped]

theorem negAdd_bare (H : PyHash) (bv : BV) (n : String) (v : Val) :
    (bareBV bv).negAdd H n (bareVal v) = bareBV (bv.negAdd H n v) := by
  simp only [BV.negAdd, negGet_bare, List.any_map, Function.comp_def, keyEq_bare_left, keyEq_bare_right]
  simp only [bareBV, BV.mk.injEq, true_and]
  rw [← aset_mapped (List.map bareVal)]
  congr 1
  split <;> simp

theorem hash_bare (H : PyHash) (bv : BV) (c : Chunk) : (bare c).hash H (bareBV bv) = c.hash H bv := by
  simp only [Chunk.hash, bare, viewSlots_bare, get_bare, Option.map_map, Function.comp_def, view_bareVal]

theorem bareBV_init : bareBV BV.init = BV.init := rfl

theorem hash_bare_init (H : PyHash) (c : Chunk) : (bare c).hash H BV.init = c.hash H BV.init := hash_bare H BV.init c

theorem eq_bare (H : PyHash) (bv : BV) (a b : Chunk) : (bare a).eq H (bareBV bv) (bare b) = a.eq H bv b := by
  simp only [Chunk.eq, hash_bare, hash_bare_init]

theorem ceq_bare (H : PyHash) (a b : Chunk) : ceq H (bare a) (bare b) = ceq H a b := by
  simp only [ceq, hash_bare_init]

theorem splitting_bare (s : Slot) : (splitting (bareSlot s)).values = bareVal (splitting s).values ∧
    (splitting (bareSlot s)).vars = (splitting s).vars ∧ (splitting (bareSlot s)).negvalues = (splitting s).negvalues.map bareVal ∧
    (splitting (bareSlot s)).negvars = (splitting s).negvars := by
  cases s with
  | empty => simp [bareSlot, splitting, bareVal]
  | vv x => obtain ⟨v, vr, nv, nvr⟩ := x; simp [bareSlot, splitting, bareVals_map]

theorem matchingVal_bare (c : Chunk) (n : String) : matchingVal (bare c) n = bareVal (matchingVal c n) := by
  simp only [matchingVal, bare, bareSlots_map, alook_mapped]
  cases alook n c.slots with
  | none => rfl
  | some s => cases s with
    | empty => rfl
    | vv x => obtain ⟨v, vr, nv, nvr⟩ := x; rfl

theorem simLook_bare (H : PyHash) (a b : Val) (s : SimTable) :
    simLook H (bareVal a) (bareVal b) (bareSims s) = simLook H a b s := by
  induction s with
  | nil => rfl
  | cons p r ih =>
    obtain ⟨⟨x, y⟩, q⟩ := p
    show (if keyEq H (bareVal x) (bareVal a) && keyEq H (bareVal y) (bareVal b) then some q
      else simLook H (bareVal a) (bareVal b) (bareSims r)) = _
    rw [ih]; simp only [keyEq_bare_left, keyEq_bare_right]; rfl

/-- The settings of matching without type names. -/
def bareCfg (cfg : MatchCfg) : MatchCfg := ⟨cfg.partialm, cfg.penalty, bareSims cfg.sims⟩

/-- The state of matching without type names. -/
def bareM (st : MState) : MState := ⟨bareBV st.bv, st.sim⟩

theorem penalise_bare (H : PyHash) (cfg : MatchCfg) (st : MState) (a b : Val) :
    penalise H (bareCfg cfg) (bareM st) (bareVal a) (bareVal b) = bareOutcome (penalise H cfg st a b) := by
  simp only [penalise, getSimilarity, bareCfg, simLook_bare]
  cases cfg.partialm <;> rfl

/-- A loop commutes if its body does. -/
theorem loopE_bare {α β : Type} (g : α → β) (f : MState → α → Except BV MState) (f' : MState → β → Except BV MState)
    (h : ∀ st a, f' (bareM st) (g a) = bareOutcome (f st a)) :
    ∀ (l : List α) (st : MState), loopE f' (bareM st) (l.map g) = bareOutcome (loopE f st l) := by
  intro l
  induction l with
  | nil => intro st; rfl
  | cons a r ih =>
    intro st
    simp only [List.map_cons, loopE, h]
    cases f st a with
    | error bv => rfl
    | ok st' => exact ih st'

theorem matchVar_bare (H : PyHash) (cfg : MatchCfg) (mv : Val) (vr : Option String) (st : MState) :
    matchVar H (bareCfg cfg) (bareVal mv) vr (bareM st) = bareOutcome (matchVar H cfg mv vr st) := by
  cases vr with
  | none => rfl
  | some var =>
    simp only [matchVar]
    split
    · rfl
    · have hneg : (bareM st).bv.negGet var = (st.bv.negGet var).map bareVal := negGet_bare _ _
      have hl := loopE_bare bareVal (matchVarNeg H cfg mv) (matchVarNeg H (bareCfg cfg) (bareVal mv)) (by
        intro st a
        simp only [matchVarNeg, pyEq_bare]
        split
        · exact penalise_bare ..
        · rfl) (st.bv.negGet var) st
      rw [hneg, hl]
      cases loopE (matchVarNeg H cfg mv) st (st.bv.negGet var) with
      | error bv => rfl
      | ok st' =>
        show matchVarPos H (bareCfg cfg) (bareVal mv) var (bareM st') = _
        simp only [matchVarPos]
        have hg : (bareM st').bv.get var = (st'.bv.get var).map bareVal := get_bare _ _
        rw [hg]
        cases st'.bv.get var with
        | none =>
          simp only [Option.map_none, bareOutcome]
          show Except.ok (⟨(bareBV st'.bv).bind var (bareVal mv), st'.sim⟩ : MState) = _
          rw [bind_bare]
        | some b =>
          simp only [Option.map_some, pyEq_bare]
          split
          · rfl
          · exact penalise_bare ..

theorem matchNegVar_bare (H : PyHash) (cfg : MatchCfg) (mv : Val) (st : MState) (var : String) :
    matchNegVar H (bareCfg cfg) (bareVal mv) (bareM st) var = bareOutcome (matchNegVar H cfg mv st var) := by
  have hg : (bareM st).bv.get var = (st.bv.get var).map bareVal := get_bare _ _
  have hadd : ∀ st : MState, ({ bareM st with bv := (bareM st).bv.negAdd H var (bareVal mv) } : MState)
      = bareM { st with bv := st.bv.negAdd H var mv } := by
    intro st; simp only [bareM, negAdd_bare]
  simp only [matchNegVar, hg]
  cases st.bv.get var with
  | none => simp only [Option.map_none, hadd]; rfl
  | some b =>
    simp only [Option.map_some, pyEq_bare]
    split
    · rw [penalise_bare]
      cases penalise H cfg st b mv with
      | error bv => rfl
      | ok st' => exact congrArg Except.ok (hadd st')
    · simp only [hadd]; rfl

theorem matchValue_bare (H : PyHash) (cfg : MatchCfg) (mv v : Val) (st : MState) :
    matchValue H (bareCfg cfg) (bareVal mv) (bareVal v) (bareM st) = bareOutcome (matchValue H cfg mv v st) := by
  simp only [matchValue, truthy_bare, pyEq_bare_left, pyEq_bare_right]
  split
  · exact penalise_bare ..
  · rfl

theorem matchNegVal_bare (H : PyHash) (cfg : MatchCfg) (mv : Val) (st : MState) (nv : Val) :
    matchNegVal H (bareCfg cfg) (bareVal mv) (bareM st) (bareVal nv) = bareOutcome (matchNegVal H cfg mv st nv) := by
  have h : negValHit H (bareVal nv) (bareVal mv) = negValHit H nv mv := by
    simp only [negValHit, keyEq_bare_right, pyEq_bare_left, pyEq_bare_right]
  simp only [matchNegVal, h]
  split
  · exact penalise_bare ..
  · rfl

theorem matchSlot_bare (H : PyHash) (cfg : MatchCfg) (other : Chunk) (st : MState) (x : String × Slot) :
    matchSlot H (bareCfg cfg) (bare other) (bareM st) (x.1, bareSlot x.2) = bareOutcome (matchSlot H cfg other st x) := by
  obtain ⟨n, s⟩ := x
  obtain ⟨h1, h2, h3, h4⟩ := splitting_bare s
  simp only [matchSlot, matchingVal_bare, h1, h2, h3, h4, matchVar_bare]
  cases matchVar H cfg (matchingVal other n) (splitting s).vars st with
  | error bv => rfl
  | ok st =>
    have e := loopE_bare id (matchNegVar H cfg (matchingVal other n)) (matchNegVar H (bareCfg cfg) (bareVal (matchingVal other n)))
      (fun st a => matchNegVar_bare ..) (splitting s).negvars st
    rw [List.map_id] at e
    simp only [bareOutcome]
    show (match loopE (matchNegVar H (bareCfg cfg) (bareVal (matchingVal other n))) (bareM st) (splitting s).negvars with
      | .error bv => _ | .ok st => _) = _
    rw [e]
    cases loopE (matchNegVar H cfg (matchingVal other n)) st (splitting s).negvars with
    | error bv => rfl
    | ok st =>
      simp only [bareOutcome]
      show (match matchValue H (bareCfg cfg) (bareVal (matchingVal other n)) (bareVal (splitting s).values) (bareM st) with
        | .error bv => _ | .ok st => _) = _
      rw [matchValue_bare]
      cases matchValue H cfg (matchingVal other n) (splitting s).values st with
      | error bv => rfl
      | ok st =>
        exact loopE_bare bareVal _ _ (fun st a => matchNegVal_bare ..) (splitting s).negvalues st

theorem matchC_bare (H : PyHash) (cfg : MatchCfg) (bv : BV) (a b : Chunk) :
    (bare a).matchC H (bareCfg cfg) (bareBV bv) (bare b) = bareOutcome (a.matchC H cfg bv b) := by
  simp only [Chunk.matchC, eq_bare]
  split
  · rfl
  · show loopE _ (bareM ⟨bv, 0⟩) (bareSlots a.slots) = _
    rw [bareSlots_map]
    exact loopE_bare (fun p : String × Slot => (p.1, bareSlot p.2)) (matchSlot H cfg b) _
      (fun st x => matchSlot_bare H cfg b st x) a.slots ⟨bv, 0⟩

theorem le_bare (H : PyHash) (bv : BV) (a b : Chunk) :
    (bare a).le H (bareBV bv) (bare b) = ((a.le H bv b).1, bareBV (a.le H bv b).2) := by
  have h := matchC_bare H (exactCfg []) bv a b
  have hc : bareCfg (exactCfg []) = exactCfg [] := rfl
  rw [hc] at h
  simp only [Chunk.le, eq_bare, h]
  split
  · rfl
  · cases a.matchC H (exactCfg []) bv b <;> rfl

theorem lt_bare (H : PyHash) (bv : BV) (a b : Chunk) :
    (bare a).lt H (bareBV bv) (bare b) = ((a.lt H bv b).1, bareBV (a.lt H bv b).2) := by
  have h := matchC_bare H (exactCfg []) bv a b
  have hc : bareCfg (exactCfg []) = exactCfg [] := rfl
  rw [hc] at h
  simp only [Chunk.lt, eq_bare, h]
  split
  · rfl
  · cases a.matchC H (exactCfg []) bv b <;> rfl

/-! ## Retrieval -/

theorem cdLook_bare {α : Type} (H : PyHash) (c : Chunk) (d : CDict α) :
    cdLook H (bare c) (d.map (fun p => (bare p.1, p.2))) = cdLook H c d := by
  induction d with
  | nil => rfl
  | cons p r ih => obtain ⟨x, a⟩ := p; simp only [List.map_cons, cdLook, ceq_bare, ih]

theorem vcLook_bare (H : PyHash) (v : Val) (d : VCounter) :
    vcLook H (bareVal v) (d.map (fun p => (bareVal p.1, p.2))) = vcLook H v d := by
  induction d with
  | nil => rfl
  | cons p r ih => obtain ⟨x, a⟩ := p; simp only [List.map_cons, vcLook, keyEq_bare_left, keyEq_bare_right, ih]

theorem scLook_bare (H : PyHash) (s : String) (v : Val) (d : SCounter) :
    scLook H s (bareVal v) (d.map (fun p => ((p.1.1, bareVal p.1.2), p.2))) = scLook H s v d := by
  induction d with
  | nil => rfl
  | cons p r ih => obtain ⟨⟨t, x⟩, a⟩ := p; simp only [List.map_cons, scLook, keyEq_bare_left, keyEq_bare_right, ih]

theorem findChunks_bare (H : PyHash) (only : Bool) (c : Chunk) :
    findChunks H only (bare c) = (findChunks H only c).map (fun p => (p.1, bareVal p.2)) := by
  simp only [findChunks, bare, bareSlots_map]
  induction c.slots with
  | nil => rfl
  | cons p r ih =>
    obtain ⟨n, s⟩ := p
    simp only [List.map_cons, List.filterMap_cons, (splitting_bare s).1, pyEq_bare_left, ih]
    generalize (splitting s).values = v
    cases (!pyEq H v .none && !pyEq H v (.str "None"))
    · simp
    · cases only <;> cases v <;> simp [bareVal]

theorem countSlots_bare (hit hit' : String → Val → Bool) (h : ∀ s v, hit' s (bareVal v) = hit s v) (cs : List Chunk) :
    countSlots hit' (cs.map bare) = countSlots hit cs := by
  simp only [countSlots, List.map_map]
  congr 1
  refine List.map_congr_left fun c _ => ?_
  simp only [Function.comp_def, bare, bareSlots_map, List.countP_map, (splitting_bare _).1, truthy_bare, h]

theorem strengthAssoc_bare (H : PyHash) (dm : DecMem) (S : ℝ) (restricted : String) (only : Bool) (j : Val) (i : Chunk) :
    strengthAssoc H (bareDM dm) S restricted only (bareVal j) (bare i) =
      (bareDM (strengthAssoc H dm S restricted only j i).1, (strengthAssoc H dm S restricted only j i).2) := by
  have hdata : (bareDM dm).data.map Prod.fst = (dm.data.map Prod.fst).map bare := by simp [bareDM]
  have h1 : scLook H restricted (bareVal j) (bareDM dm).restr = scLook H restricted j dm.restr := scLook_bare ..
  have h2 : vcLook H (bareVal j) (bareDM dm).unr = vcLook H j dm.unr := vcLook_bare ..
  have c1 := countSlots_bare (fun s v => s == restricted && pyEq H j v) (fun s v => s == restricted && pyEq H (bareVal j) v)
    (by intro s v; simp only [pyEq_bare]) (dm.data.map Prod.fst)
  have c2 := countSlots_bare (fun _ v => pyEq H j v) (fun _ v => pyEq H (bareVal j) v)
    (by intro s v; simp only [pyEq_bare]) (dm.data.map Prod.fst)
  simp only [strengthAssoc, findChunks_bare, List.countP_map, List.any_map, Function.comp_def, pyEq_bare, bare_val, h1, h2, hdata, c1, c2]
  split
  · rfl
  · split
    · split
      · cases scLook H restricted j dm.restr with
        | some n => rfl
        | none => simp [bareDM]
      · rfl
    · cases vcLook H j dm.unr with
      | some n => rfl
      | none => simp [bareDM]

theorem weighBuffer_bare (H : PyHash) (only : Bool) (k : Chunk) (W : ℝ) : weighBuffer H only (bare k) W = weighBuffer H only k W := by
  simp only [weighBuffer, findChunks_bare, List.length_map]

theorem spreadFrom_bare (H : PyHash) (S : ℝ) (restricted only : Bool) (i : Chunk) (l : List (String × Val)) :
    ∀ (dm : DecMem) (acc : ℝ), spreadFrom H S restricted only (bare i) (l.map (fun p => (p.1, bareVal p.2))) (bareDM dm) acc =
      (bareDM (spreadFrom H S restricted only i l dm acc).1, (spreadFrom H S restricted only i l dm acc).2) := by
  induction l with
  | nil => intro dm acc; rfl
  | cons p r ih => intro dm acc; simp only [List.map_cons, spreadFrom, strengthAssoc_bare, ih]

theorem spreading_bare (H : PyHash) (S : ℝ) (restricted only : Bool) (bufs : List (String × Option Chunk)) (i : Chunk)
    (w : List (String × ℝ)) : ∀ (dm : DecMem) (acc : ℝ),
    spreading H S restricted only (bareBufs bufs) (bare i) w (bareDM dm) acc =
      (bareDM (spreading H S restricted only bufs i w dm acc).1, (spreading H S restricted only bufs i w dm acc).2) := by
  induction w with
  | nil => intro dm acc; rfl
  | cons p r ih =>
    obtain ⟨b, W⟩ := p
    intro dm acc
    simp only [spreading, bareBufs, alook_mapped]
    cases alook b bufs with
    | none => rfl
    | some o => cases o with
      | none => exact ih dm acc
      | some k =>
        simp only [Option.map_some, findChunks_bare, spreadFrom_bare, weighBuffer_bare]
        exact ih _ _

/-- The settings of retrieval without type names. -/
def bareParams (p : RParams) : RParams := { p with sims := bareSims p.sims }

theorem pmScore_bare (H : PyHash) (p : RParams) (req c : Chunk) :
    pmScore H (bareParams p) (bare req) (bare c) = pmScore H p req c := by
  have h := matchC_bare H ⟨true, p.penalty, p.sims⟩ BV.init req c
  have h2 := le_bare H BV.init req c
  rw [bareBV_init] at h h2
  simp only [pmScore, bareParams, h2]
  show (if p.partialMatching then (match (bare req).matchC H (bareCfg ⟨true, p.penalty, p.sims⟩) BV.init (bare c) with
    | .ok st => some (st.sim : ℝ) | .error _ => some 0) else _) = _
  rw [h]
  cases req.matchC H ⟨true, p.penalty, p.sims⟩ BV.init c <;> rfl

theorem candidate_bare (H : PyHash) (p : RParams) (req : Chunk) (now : ℚ) (bufs : List (String × Option Chunk)) (draw : ℝ)
    (dm : DecMem) (c : Chunk) (l : List ℚ) :
    candidateActivation H (bareParams p) (bare req) now (bareBufs bufs) draw (bareDM dm) (bare c) l =
      (bareDM (candidateActivation H p req now bufs draw dm c l).1, (candidateActivation H p req now bufs draw dm c l).2) := by
  have ha : cdLook H (bare c) (bareDM dm).act = cdLook H c dm.act := cdLook_bare ..
  simp only [candidateActivation, pmScore_bare, ha]
  cases pmScore H p req c with
  | none => rfl
  | some pm =>
    dsimp only [bareParams]
    cases baselevel now l p.bll p.decay ((cdLook H c dm.act).map (fun q : ℚ => (q : ℝ))) p.optimized with
    | error e => cases e <;> rfl
    | ok b =>
      dsimp only
      rw [spreading_bare]
      rcases spreading H p.S p.restricted p.only bufs c p.weights dm 0 with ⟨dm', r⟩
      cases r with
      | error e => rfl
      | ok sa =>
        dsimp only
        cases instNoise p.noise draw <;> rfl

theorem inRecent_bare (H : PyHash) (recent : List (Option Chunk)) (c : Chunk) :
    inRecent H (recent.map (Option.map bare)) (bare c) = inRecent H recent c := by
  simp only [inRecent, List.any_map]
  congr 1
  funext o
  cases o with
  | none => simp only [Function.comp, Option.map_none, bare_val, pyEq_bare_right]
  | some d => simp only [Function.comp, Option.map_some, ceq_bare]

theorem skips_bare (H : PyHash) (finst : ℕ) (recent : List (Option Chunk)) (want : Option Bool) (c : Chunk) :
    recencySkips H finst (recent.map (Option.map bare)) want (bare c) = recencySkips H finst recent want c := by
  simp only [recencySkips, inRecent_bare]

theorem symLoop_bare (H : PyHash) (req : Chunk) (now : ℚ) (skip skip' : Chunk → Bool) (hs : ∀ c, skip' (bare c) = skip c)
    (l : List (Chunk × List ℚ)) : ∀ acc : Option Chunk,
    symLoop H (bare req) now skip' (l.map (fun p => (bare p.1, p.2))) (acc.map bare) =
      (symLoop H req now skip l acc).map (Option.map bare) := by
  induction l with
  | nil => intro acc; rfl
  | cons p r ih =>
    obtain ⟨c, l⟩ := p
    intro acc
    have h2 := le_bare H BV.init req c
    rw [bareBV_init] at h2
    simp only [List.map_cons, symLoop, hs, h2]
    split
    · exact ih acc
    · split
      · cases l with
        | nil => rfl
        | cons t l =>
          dsimp only
          rw [← ih]
          congr 1
          split <;> rfl
      · exact ih acc

/-- The best chunk so far without type names. -/
def bareBest : Best → Best := Option.map (fun p => (bare p.1, p.2))

theorem better_bare (thr : ℝ) (best : Best) (c : Chunk) (a : ℝ) :
    better thr (bareBest best) (bare c) a = bareBest (better thr best c a) := by
  cases best with
  | none => simp only [bareBest, Option.map_none, better]; split <;> rfl
  | some p => obtain ⟨d, m⟩ := p; simp only [bareBest, Option.map_some, better]; split <;> rfl

theorem subLoop_bare (H : PyHash) (p : RParams) (req : Chunk) (now : ℚ) (skip skip' : Chunk → Bool)
    (hs : ∀ c, skip' (bare c) = skip c) (bufs : List (String × Option Chunk)) (draws : ℕ → ℝ) (l : List (Chunk × List ℚ)) :
    ∀ (k : ℕ) (dm : DecMem) (best : Best),
    subLoop H (bareParams p) (bare req) now skip' (bareBufs bufs) draws k (l.map (fun p => (bare p.1, p.2))) (bareDM dm) (bareBest best) =
      (bareDM (subLoop H p req now skip bufs draws k l dm best).1, bareBest (subLoop H p req now skip bufs draws k l dm best).2.1,
        (subLoop H p req now skip bufs draws k l dm best).2.2) := by
  induction l with
  | nil => intro k dm best; rfl
  | cons q r ih =>
    obtain ⟨c, l⟩ := q
    intro k dm best
    simp only [List.map_cons, subLoop, hs]
    split
    · exact ih (k + 1) dm best
    · rw [candidate_bare]
      rcases candidateActivation H p req now bufs (draws k) dm c l with ⟨dm', x⟩
      cases x with
      | error e => rfl
      | ok o => cases o with
        | none => exact ih (k + 1) dm' best
        | some a =>
          dsimp only
          have : (bareParams p).threshold = p.threshold := rfl
          rw [this, better_bare]
          exact ih (k + 1) dm' _

/-! ## Empty slots of a request -/

/-- Is the slot used? -/
def Slot.used : Slot → Bool
  | .empty => false
  | .vv _ => true

theorem hashItems_used (H : PyHash) (lk : String → Option View) (l : Slots) :
    hashItems H lk (viewSlots H (l.filter (fun p => Slot.used p.2))) = hashItems H lk (viewSlots H l) := by
  induction l with
  | nil => rfl
  | cons p r ih =>
    obtain ⟨n, s⟩ := p
    cases s with
    | empty => simpa [List.filter_cons, Slot.used, viewSlots, viewSlot, hashItems] using ih
    | vv x =>
      obtain ⟨v, vr, nv, nvr⟩ := x
      have e : List.filter (fun p => Slot.used p.2) ((n, SlotOf.vv ⟨v, vr, nv, nvr⟩) :: r) =
        (n, SlotOf.vv ⟨v, vr, nv, nvr⟩) :: r.filter (fun p => Slot.used p.2) := rfl
      rw [e]
      simp only [viewSlots, viewSlot, hashItems, ih]

theorem matchSlot_unused (H : PyHash) (cfg : MatchCfg) (other : Chunk) (st : MState) (n : String) :
    matchSlot H cfg other st (n, .empty) = .ok st := by
  simp [matchSlot, splitting, matchVar, loopE, matchValue, Val.truthy]

theorem matchSlots_used (H : PyHash) (cfg : MatchCfg) (other : Chunk) (l : Slots) : ∀ st : MState,
    matchSlots H cfg other st (l.filter (fun p => Slot.used p.2)) = matchSlots H cfg other st l := by
  induction l with
  | nil => intro st; rfl
  | cons p r ih =>
    obtain ⟨n, s⟩ := p
    intro st
    cases s with
    | empty =>
      have e : List.filter (fun p => Slot.used p.2) ((n, SlotOf.empty) :: r) = r.filter (fun p => Slot.used p.2) := rfl
      rw [e, ih st]
      simp only [matchSlots, loopE, matchSlot_unused]
    | vv x =>
      have e : List.filter (fun p => Slot.used p.2) ((n, SlotOf.vv x) :: r) =
        (n, SlotOf.vv x) :: r.filter (fun p => Slot.used p.2) := rfl
      rw [e]
      simp only [matchSlots, loopE] at ih ⊢
      cases matchSlot H cfg other st (n, .vv x) with
      | error bv => rfl
      | ok st' => exact ih st'

/-- The chunk without its empty slots. -/
def Chunk.usedOnly (c : Chunk) : Chunk := ⟨c.typ, c.slots.filter (fun p => Slot.used p.2)⟩

theorem hash_used (H : PyHash) (bv : BV) (a : Chunk) : a.usedOnly.hash H bv = a.hash H bv := by
  simp only [Chunk.hash, Chunk.usedOnly, hashItems_used]

theorem matchC_used (H : PyHash) (cfg : MatchCfg) (bv : BV) (a b : Chunk) :
    a.usedOnly.matchC H cfg bv b = a.matchC H cfg bv b := by
  have e : a.usedOnly.eq H bv b = a.eq H bv b := by simp only [Chunk.eq, hash_used]
  simp only [Chunk.matchC, e]
  split
  · rfl
  · exact matchSlots_used H cfg b a.slots _

theorem asked_eq (c : Chunk) : asked c = (bare c).usedOnly := by
  rfl

theorem asked_hash (H : PyHash) (bv bv' : BV) {a a' : Chunk} (h : asked a = asked a') (hv : bareBV bv = bareBV bv') :
    a.hash H bv = a'.hash H bv' := by
  rw [asked_eq, asked_eq] at h
  rw [← hash_bare, ← hash_bare H bv', ← hash_used, ← hash_used H _ (bare a'), h, hv]

theorem asked_match (H : PyHash) (cfg : MatchCfg) (bv : BV) {a a' : Chunk} (h : asked a = asked a') (b : Chunk) :
    (bare a).matchC H cfg bv b = (bare a').matchC H cfg bv b := by
  rw [asked_eq, asked_eq] at h
  rw [← matchC_used, h, matchC_used]

theorem asked_le (H : PyHash) (bv : BV) {a a' : Chunk} (h : asked a = asked a') (b : Chunk) :
    (bare a).le H bv b = (bare a').le H bv b := by
  have h2 : (bare a).hash H bv = (bare a').hash H bv := by
    rw [asked_eq, asked_eq] at h
    rw [← hash_used, h, hash_used]
  have e : (bare a).eq H bv b = (bare a').eq H bv b := by simp only [Chunk.eq, h2]
  simp only [Chunk.le, e, asked_match H _ bv h b]

theorem symLoop_asked (H : PyHash) {req req' : Chunk} (h : asked req = asked req') (now : ℚ) (skip : Chunk → Bool)
    (l : List (Chunk × List ℚ)) : ∀ acc : Option Chunk,
    symLoop H (bare req) now skip l acc = symLoop H (bare req') now skip l acc := by
  induction l with
  | nil => intro acc; rfl
  | cons p r ih =>
    obtain ⟨c, l⟩ := p
    intro acc
    simp only [symLoop, asked_le H _ h, ih]

theorem pmScore_asked (H : PyHash) (p : RParams) {req req' : Chunk} (h : asked req = asked req') (c : Chunk) :
    pmScore H p (bare req) c = pmScore H p (bare req') c := by
  simp only [pmScore, asked_le H _ h, asked_match H _ _ h]

theorem candidate_asked (H : PyHash) (p : RParams) {req req' : Chunk} (h : asked req = asked req') (now : ℚ)
    (bufs : List (String × Option Chunk)) (draw : ℝ) (dm : DecMem) (c : Chunk) (l : List ℚ) :
    candidateActivation H p (bare req) now bufs draw dm c l = candidateActivation H p (bare req') now bufs draw dm c l := by
  simp only [candidateActivation, pmScore_asked H p h]

theorem subLoop_asked (H : PyHash) (p : RParams) {req req' : Chunk} (h : asked req = asked req') (now : ℚ) (skip : Chunk → Bool)
    (bufs : List (String × Option Chunk)) (draws : ℕ → ℝ) (l : List (Chunk × List ℚ)) : ∀ (k : ℕ) (dm : DecMem) (best : Best),
    subLoop H p (bare req) now skip bufs draws k l dm best = subLoop H p (bare req') now skip bufs draws k l dm best := by
  induction l with
  | nil => intro k dm best; rfl
  | cons q r ih =>
    obtain ⟨c, l⟩ := q
    intro k dm best
    simp only [subLoop, candidate_asked H p h, ih]

end Verif
