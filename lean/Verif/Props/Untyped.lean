import Verif.Lemmas.Untyped
import Verif.Lemmas.ChunkType
import Verif.Lemmas.Buffer
import Verif.Props.BoundVars
/-!
# C05: types are irrelevant for matching and retrieval, at any depth
-/
namespace Verif.Props
open Verif Verif.Spec

/-- C05: two patterns asking for the same and two chunks that differ at most in type names (of nested chunks too, and of
chunks bound to variables or listed as similar): matching succeeds with the same score or fails in both cases, and it leaves
bindings that differ at most in type names; `<=` and `<` give the same answer. -/
theorem C05_match_nested (H : PyHash) (cfg cfg' : MatchCfg) (bv bv' : BV) {a a' b b' : Chunk} (ha : asked a = asked a')
    (hb : bare b = bare b') (hv : bareBV bv = bareBV bv') (hp : cfg.partialm = cfg'.partialm) (hm : cfg.penalty = cfg'.penalty)
    (hs : bareSims cfg.sims = bareSims cfg'.sims) :
    bareOutcome (a.matchC H cfg bv b) = bareOutcome (a'.matchC H cfg' bv' b') ∧
    a.eq H bv b = a'.eq H bv' b' ∧
    (a.le H bv b).1 = (a'.le H bv' b').1 ∧ bareBV (a.le H bv b).2 = bareBV (a'.le H bv' b').2 ∧
    (a.lt H bv b).1 = (a'.lt H bv' b').1 ∧ bareBV (a.lt H bv b).2 = bareBV (a'.lt H bv' b').2 := by
  have hc : bareCfg cfg = bareCfg cfg' := by simp only [bareCfg, hp, hm, hs]
  have h2 : a.eq H bv b = a'.eq H bv' b' := by
    rw [← eq_bare, ← eq_bare H bv' a' b']
    simp only [Chunk.eq, hash_bare, asked_hash H bv bv' ha hv, hb]
  have h3 : (a.le H bv b).1 = (a'.le H bv' b').1 ∧ bareBV (a.le H bv b).2 = bareBV (a'.le H bv' b').2 := by
    have := le_bare H bv a b
    have h' := le_bare H bv' a' b'
    rw [asked_le H _ ha, hb, hv, h'] at this
    simpa [eq_comm] using this
  have h4 : (a.lt H bv b).1 = (a'.lt H bv' b').1 ∧ bareBV (a.lt H bv b).2 = bareBV (a'.lt H bv' b').2 := by
    have := lt_bare H bv a b
    have h' := lt_bare H bv' a' b'
    have e : (bare a).lt H (bareBV bv) (bare b) = (bare a').lt H (bareBV bv) (bare b) := by
      have : (bare a).eq H (bareBV bv) (bare b) = (bare a').eq H (bareBV bv) (bare b) := by
        rw [eq_bare]
        rw [h2, ← eq_bare, hv, hb]
      simp only [Chunk.lt, this, asked_match H _ _ ha]
    rw [e, hb, hv, h'] at this
    simpa [eq_comm] using this
  refine ⟨?_, h2, h3.1, h3.2, h4.1, h4.2⟩
  rw [← matchC_bare, ← matchC_bare, asked_match H _ _ ha, hb, hv, hc]

/-- C05 for retrieval: two memories, buffers and lists of recent chunks that differ at most in type names, and two requests
which ask for the same once their variables are resolved. The chunks retrieved differ at most in type names (or none is
retrieved in both cases, or the same exception is raised), it takes the same time, and the memories, the recent chunks and
the activations recorded afterwards differ at most in type names. -/
theorem C05_retrieve (P : Py) (p p' : RParams) (st st' : RBuf) (now : ℚ) (other other' : Chunk) (bv bv' : BV)
    (bufs bufs' : List (String × Option Chunk)) (want : Option Bool) (draws : ℕ → ℝ) {req req' : Chunk}
    (hr : (resolveChunk P bv false st.reg other).2 = .ok req) (hr' : (resolveChunk P bv' false st'.reg other').2 = .ok req')
    (ha : asked req = asked req') (hp : { p with sims := bareSims p.sims } = { p' with sims := bareSims p'.sims })
    (hd : bareDM st.dm = bareDM st'.dm) (hrec : st.recent.map (Option.map bare) = st'.recent.map (Option.map bare))
    (hf : st.finst = st'.finst) (hact : st.activation = st'.activation) (hb : bareBufs bufs = bareBufs bufs') :
    let x := st.retrieve P p now other bv bufs want draws
    let x' := st'.retrieve P p' now other' bv' bufs' want draws
    bareResult x.2 = bareResult x'.2 ∧ bareDM x.1.dm = bareDM x'.1.dm ∧
      x.1.recent.map (Option.map bare) = x'.1.recent.map (Option.map bare) ∧ x.1.activation = x'.1.activation := by
  intro x x'
  obtain ⟨y, hx⟩ : ∃ y, y = x := ⟨_, rfl⟩
  obtain ⟨y', hx'⟩ : ∃ y', y' = x' := ⟨_, rfl⟩
  rw [← hx, ← hx']
  simp only [x, x', RBuf.retrieve] at hx hx'
  have hq : bareParams p = bareParams p' := hp
  have hsub : p.subsymbolic = p'.subsymbolic := (by have h := congrArg RParams.subsymbolic hq; exact h)
  have hthr : p.threshold = p'.threshold := (by have h := congrArg RParams.threshold hq; exact h)
  have hF : p.F = p'.F := (by have h := congrArg RParams.F hq; exact h)
  have hff : p.f = p'.f := (by have h := congrArg RParams.f hq; exact h)
  have hrf : p.ruleFiring = p'.ruleFiring := (by have h := congrArg RParams.ruleFiring hq; exact h)
  have hdata : st.dm.data.map (fun p => (bare p.1, p.2)) = st'.dm.data.map (fun p => (bare p.1, p.2)) := congrArg DecMem.data hd
  have hempty : ∀ c d : Chunk, bare c = bare d → c.slots.isEmpty = d.slots.isEmpty := by
    intro c d h
    have h := congrArg Chunk.slots h
    simp only [bare, bareSlots_map] at h
    have h := congrArg List.isEmpty h
    simpa using h
  have hrem : ∀ (o o' : Option Chunk), o.map bare = o'.map bare →
      (remember st.finst st.recent o).map (Option.map bare) = (remember st'.finst st'.recent o').map (Option.map bare) := by
    intro o o' h
    have hl : st.recent.length = st'.recent.length := by simpa using congrArg List.length hrec
    simp only [remember, ← hf]
    split
    · exact hrec
    · simp only [List.length_append, List.length_singleton, hl]
      split
      · simp [hrec, h]
      · simp [hrec, h]
  -- the skipped chunks
  obtain ⟨skipB, hsk, hsk'⟩ : ∃ skipB : Chunk → Bool, (∀ c, skipB (bare c) = recencySkips P.H st.finst st.recent want c) ∧
      ∀ c, skipB (bare c) = recencySkips P.H st'.finst st'.recent want c := by
    refine ⟨recencySkips P.H st.finst (st.recent.map (Option.map bare)) want, fun c => skips_bare .., ?_⟩
    intro c
    rw [hrec, hf]
    exact skips_bare ..
  have key : ∀ {x : Reg × Except PyErr Chunk} {q : Chunk}, x.2 = .ok q → x = (x.1, .ok q) := by
    rintro ⟨r, e⟩ q rfl; rfl
  rw [key hr] at hx
  rw [key hr'] at hx'
  dsimp only at hx hx'
  rw [← hsub] at hx'
  cases hsy : p.subsymbolic with
  | false =>
    rw [hsy] at hx hx'
    simp only [Bool.false_eq_true, if_false] at hx hx'
    have e1 := symLoop_bare P.H req now _ skipB hsk st.dm.data none
    have e2 := symLoop_bare P.H req' now _ skipB hsk' st'.dm.data none
    rw [hdata, symLoop_asked P.H ha, e2] at e1
    cases h1 : symLoop P.H req now (recencySkips P.H st.finst st.recent want) st.dm.data none <;>
      cases h2 : symLoop P.H req' now (recencySkips P.H st'.finst st'.recent want) st'.dm.data none <;>
      rw [h1] at hx e1 <;> rw [h2] at hx' e1 <;> dsimp only at hx hx' <;> simp only [Except.map, reduceCtorEq, Except.error.injEq, Except.ok.injEq] at e1 <;>
      rw [hx, hx']
    · exact ⟨congrArg Except.error e1.symm, hd, hrec, hact⟩
    · rename_i o o'
      refine ⟨?_, hd, hrem _ _ e1.symm, hact⟩
      have hn : notRetrieved o = notRetrieved o' := by
        cases o <;> cases o' <;> simp only [Option.map_none, Option.map_some, reduceCtorEq, Option.some.injEq] at e1
        · rfl
        · exact (hempty _ _ e1).symm
      simp only [bareResult, e1, hn, hrf]
  | true =>
    rw [hsy] at hx hx'
    simp only [if_true] at hx hx'
    have e1 := subLoop_bare P.H p req now _ skipB hsk bufs draws st.dm.data 0 st.dm none
    have e2 := subLoop_bare P.H p' req' now _ skipB hsk' bufs' draws st'.dm.data 0 st'.dm none
    rw [hdata, hq, hb, hd, subLoop_asked P.H _ ha, e2] at e1
    rcases h1 : subLoop P.H p req now (recencySkips P.H st.finst st.recent want) bufs draws 0 st.dm.data st.dm none with ⟨dm, best, err⟩
    rcases h2 : subLoop P.H p' req' now (recencySkips P.H st'.finst st'.recent want) bufs' draws 0 st'.dm.data st'.dm none with ⟨dm', best', err'⟩
    rw [h1] at hx e1
    rw [h2] at hx' e1
    simp only [Prod.mk.injEq] at e1
    obtain ⟨ed, eb, ee⟩ := e1
    subst ee
    have ha1 : best'.map Prod.snd = best.map Prod.snd := by
      cases best <;> cases best' <;> simp [bareBest] at eb ⊢
      exact eb.2
    have ha2 : (best'.map Prod.fst).map bare = (best.map Prod.fst).map bare := by
      cases best <;> cases best' <;> simp [bareBest] at eb ⊢
      exact eb.1
    cases err' with
    | some e =>
      dsimp only at hx hx'
      rw [hx, hx']
      exact ⟨rfl, ed.symm, hrec, by simp only [ha1, hact]⟩
    | none =>
      dsimp only at hx hx'
      rw [hx, hx']
      refine ⟨?_, ed.symm, hrem _ _ ha2.symm, by simp only [ha1, hact]⟩
      simp only [bareResult, ha2, Except.ok.injEq, Prod.mk.injEq, true_and]
      cases best with
      | none => cases best' with
        | none => simp only [hthr, hF, hff]
        | some q => simp [bareBest] at eb
      | some q => cases best' with
        | none => simp [bareBest] at eb
        | some q' =>
          simp only [bareBest, Option.map_some, Option.some.injEq, Prod.mk.injEq] at eb
          simp only [hempty _ _ eb.1, eb.2, hthr, hF, hff]

/-- Two lists of slots in field order with the same used slots are the same but for unused slots. -/
theorem used_ext {l l' : Slots} (h : FieldsSorted (l.map Prod.fst)) (h' : FieldsSorted (l'.map Prod.fst))
    (hx : ∀ f x, alook f l = some (.vv x) ↔ alook f l' = some (.vv x)) :
    l.filter (fun p => Slot.used p.2) = l'.filter (fun p => Slot.used p.2) := by
  have so : ∀ {l : Slots}, FieldsSorted (l.map Prod.fst) →
      (l.filter (fun p => Slot.used p.2)).Pairwise (fun x y => x.1 ++ "_" < y.1 ++ "_") := by
    intro l h
    exact (List.pairwise_map.mp h).filter _
  have nd : ∀ {l : Slots}, l.Pairwise (fun x y => x.1 ++ "_" < y.1 ++ "_") → l.Nodup := by
    intro l hl
    refine List.Pairwise.imp ?_ hl
    rintro x y hxy rfl
    exact String.lt_irrefl _ hxy
  have me : ∀ {l : Slots}, FieldsSorted (l.map Prod.fst) → ∀ f s, (f, s) ∈ l.filter (fun p => Slot.used p.2) ↔
      ∃ x, s = .vv x ∧ alook f l = some (.vv x) := by
    intro l h f s
    rw [List.mem_filter]
    constructor
    · rintro ⟨hm, hu⟩
      cases s with
      | empty => cases hu
      | vv x => exact ⟨x, rfl, alook_of_mem h.nodup hm⟩
    · rintro ⟨x, rfl, hl⟩
      exact ⟨alook_mem hl, rfl⟩
  have hp : (l.filter (fun p => Slot.used p.2)).Perm (l'.filter (fun p => Slot.used p.2)) := by
    refine (List.perm_ext_iff_of_nodup (nd (so h)) (nd (so h'))).mpr ?_
    rintro ⟨f, s⟩
    rw [me h, me h']
    simp only [hx]
  refine hp.eq_of_pairwise ?_ (so h) (so h')
  intro x y _ _ hxy hyx
  exact absurd (String.lt_trans hxy hyx) (String.lt_irrefl _)

/-- C05: a request that differs only in the type it names (`isa`) asks for the same, whatever slots the two types have,
provided that both types can be used. -/
theorem C05_isa (P : Py) (bv : BV) (ni : Bool) {reg : Reg} (hreg : RegOk P.toPyEnv reg) (t t' : String) (sl : Slots)
    (hn : (sl.map Prod.fst).Nodup) {req req' : Chunk}
    (h : (resolveChunk P bv ni reg ⟨t, sl⟩).2 = .ok req) (h' : (resolveChunk P bv ni reg ⟨t', sl⟩).2 = .ok req') :
    asked req = asked req' := by
  simp only [resolveChunk] at h h'
  have hrem : removeUnused P.H ⟨t', sl⟩ = removeUnused P.H ⟨t, sl⟩ := rfl
  rw [hrem] at h'
  cases hm : resolveAll P bv ni (removeUnused P.H ⟨t, sl⟩) with
  | error e => rw [hm] at h; cases h
  | ok mods =>
    rw [hm] at h h'
    dsimp only at h h'
    have hd : ((mods.map (fun p => (p.1, SlotArg.vv p.2))).map Prod.fst).Nodup := by
      rw [List.map_map]
      have h1 : mods.map (Prod.fst ∘ fun p => (p.1, SlotArg.vv p.2)) = mods.map Prod.fst := rfl
      rw [h1, (resolveAll_ok hm).1]
      exact hn.sublist (removeUnused_sublist P.H ⟨t, sl⟩)
    generalize mods.map (fun p => (p.1, SlotArg.vv p.2)) = dict at h h' hd
    cases hv : convertAll P.toPyEnv dict with
    | error e => simp only [createChunk, hv] at h; cases h
    | ok vals =>
      have one : ∀ {t : String} {req : Chunk}, (createChunk P.toPyEnv reg t dict).2 = .ok req →
          FieldsSorted (req.slots.map Prod.fst) ∧
          ∀ f x, alook f req.slots = some (.vv x) ↔ alook f (vals.map (fun p => (p.1, (SlotOf.vv p.2 : Slot)))) = some (.vv x) := by
        intro t req h
        rcases createChunk_cases hreg (typ := t) hd hv with ⟨_, sl, reg', hc, hs, hl, _⟩ | ⟨_, e, hc, _⟩
        · rw [hc] at h
          cases h
          refine ⟨hs, ?_⟩
          intro f x
          rw [hl]
          cases alook f (vals.map (fun p => (p.1, (SlotOf.vv p.2 : Slot)))) with
          | some y => rfl
          | none => simp only [Option.none_or, reduceCtorEq, iff_false]; split <;> simp
        · rw [hc] at h; cases h
      obtain ⟨s1, l1⟩ := one h
      obtain ⟨s2, l2⟩ := one h'
      have := used_ext s1 s2 (fun f x => (l1 f x).trans (l2 f x).symm)
      have fb : ∀ l : Slots, (l.map (fun p => (p.1, bareSlot p.2))).filter (fun p => Slot.used p.2) =
          (l.filter (fun p => Slot.used p.2)).map (fun p => (p.1, bareSlot p.2)) := by
        intro l
        rw [List.filter_map]
        congr 1
        refine List.filter_congr fun p _ => ?_
        obtain ⟨n, s⟩ := p
        cases s with
        | empty => rfl
        | vv x => rfl
      rw [asked_eq, asked_eq]
      simp only [Chunk.usedOnly, bare, bareSlots_map, fb, this]

/-! ## Examples -/

/-- Two types, one with a further slot. -/
def exTwoTypes : Reg := [("word", ["form"]), ("noun", ["form", "gender"])]

/-- A slot whose value is a chunk of type `t`. -/
def exForm (t : String) : Slots := [("form", .vv ⟨.chunk t [("letters", .vv ⟨.str "cat", none, [], []⟩)], none, [], []⟩)]

theorem exTwoTypes_ok (H : PyHash) : RegOk (exPy H).toPyEnv exTwoTypes := by
  intro t fs h
  simp only [exTwoTypes, alook] at h
  split at h
  · subst t; cases h
    exact ⟨by unfold FieldsSorted; decide, by simp [exPy], by simp [exPy]⟩
  split at h
  · subst t; cases h
    exact ⟨by unfold FieldsSorted; decide, by simp [exPy], by simp [exPy]⟩
  · cases h

/-- A memory with one noun. -/
def exLexicon (t u : String) : DecMem := ⟨[(⟨t, exForm u ++ [("gender", .vv ⟨.str "f", none, [], []⟩)]⟩, [0])], [], [], []⟩

/-- The hypotheses of `C05_match_nested` are met by chunks whose nested types differ, with a slot more in one of the patterns;
the two memories of the next example are the same but for types. -/
example : asked ⟨"word", exForm "string"⟩ = asked ⟨"noun", exForm "sound" ++ [("gender", .empty)]⟩ ∧
    exForm "string" ≠ exForm "sound" ∧
    bare ⟨"word", exForm "string"⟩ = bare ⟨"w", exForm "sound"⟩ ∧ bareDM (exLexicon "noun" "string") = bareDM (exLexicon "n" "sound") := by
  refine ⟨?_, ?_, ?_, ?_⟩
  · simp [asked, exForm, bareSlots, bareSlot, bareVal, bareVals]
  · simp [exForm]
  · simp [bare, exForm, bareSlots, bareSlot, bareVal, bareVals]
  · simp [bareDM, exLexicon, bare, exForm, bareSlots, bareSlot, bareVal, bareVals]

/-- A request for the word "cat", as a word and as a noun. -/
def exCat (t : String) : Chunk := ⟨t, [("form", .vv ⟨.str "cat", none, [], []⟩)]⟩

theorem exCat_resolved (H : PyHash) : resolveAll (exPy H) BV.init false (removeUnused H (exCat "")) =
    .ok [("form", ⟨.str "cat", none, [], []⟩)] := by
  simp [resolveAll, removeUnused, exCat, exPy, pyEq, View.eq, Val.view, checkBoundVars, splitting, cbvValues, cbvCombine, cbvVars,
    cbvNegvalues, cbvNegvars, cbvFinish, CbvState.init, Val.truthy, isRelation, keyEq, View.keyEq, optStrTruthy, Except.bind]

/-- The hypotheses of `C05_isa` are met by a request for a word and for a noun; the types give them different slots. -/
example (H : PyHash) :
    (resolveChunk (exPy H) BV.init false exTwoTypes (exCat "word")).2 = .ok (exCat "word") ∧
    (resolveChunk (exPy H) BV.init false exTwoTypes (exCat "noun")).2 = .ok ⟨"noun", (exCat "noun").slots ++ [("gender", .empty)]⟩ := by
  have e : ∀ t, removeUnused (exPy H).H (exCat t) = removeUnused H (exCat "") := fun t => rfl
  constructor <;> simp only [resolveChunk, e, exCat_resolved] <;> rfl

end Verif.Props
