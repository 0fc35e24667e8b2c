import Verif.Lemmas.Sequence
import Verif.Lemmas.Untyped
/-!
# A compiled rule does in one step what its two rules do in two
-/
namespace Verif
open Spec

/-! ## Data -/

theorem data_refl {v : Val} (h : DataVal v) : SameVal v v := (sameVal_iff_dkey dataDomain h h).2 rfl

theorem data_trans {a b c : Val} (ha : DataVal a) (hb : DataVal b) (hc : DataVal c) (h1 : SameVal a b) (h2 : SameVal b c) :
    SameVal a c :=
  (sameVal_iff_dkey dataDomain ha hc).2 (((sameVal_iff_dkey dataDomain ha hb).1 h1).trans ((sameVal_iff_dkey dataDomain hb hc).1 h2))

theorem forbids_same {v w w' : Val} (hw : w ≠ .none) (hw' : w' ≠ .none) (h : SameVal w w') (hf : Forbids v w') : Forbids v w := by
  cases v <;> cases w <;> cases w' <;> simp_all [SameVal, Forbids, Noneish]

/-- Whether a slot is true depends on what the value is like only. -/
theorem slotTrue_same {σ : String → Option Val} {s : Slot} {w w' : Val} (hσ : ∀ y v, σ y = some v → DataVal v)
    (hs : ∀ x, s = .vv x → PlainVal x.values) (hw : DataVal w) (hw' : DataVal w') (h : SameVal w w') (ht : SlotTrue σ s w) :
    SlotTrue σ s w' := by
  cases s with
  | empty => trivial
  | vv x =>
    obtain ⟨t1, t2, t3, t4⟩ := ht
    refine ⟨fun y hy hne => ?_, fun y v hy hv hsame => ?_, ?_, fun v hv hf => t4 v hv (forbids_same hw.2 hw'.2 h hf)⟩
    · obtain ⟨v, hv, hsv⟩ := t1 y hy hne
      exact ⟨v, hv, data_trans (hσ y v hv) hw hw' hsv h⟩
    · exact t2 y v hy hv (data_trans (hσ y v hv) hw' hw hsame (sameVal_symm h))
    · rcases t3 with t3 | t3
      · exact Or.inl t3
      · by_cases hn : x.values = .none
        · exact Or.inl (by rw [hn]; trivial)
        · exact Or.inr (data_trans ⟨hs x rfl, hn⟩ hw hw' t3 h)

theorem matchingVal_dataVal {d : Chunk} (hd : DataChunk d) {n : String} (hn : n ∈ d.slots.map Prod.fst) : DataVal (matchingVal d n) := by
  obtain ⟨⟨n', s⟩, hs, rfl⟩ := List.mem_map.1 hn
  exact dataChunk_inDomain hd (p := ⟨"", [(n', .empty)]⟩) (by
    intro m u hm; simp only [List.mem_singleton, Prod.mk.injEq] at hm; rw [hm.1]; exact ⟨s, hs⟩) n' .empty _ List.mem_cons_self
    ((slotHas_iff hd.named _ _).2 rfl)

/-! ## Slots that say something -/

/-- The slot has a value or a variable. -/
def TellsValue (x : VarVal) : Prop := Hard x.values ∨ ∃ u, x.vars = some u ∧ u ≠ ""

theorem TellsValue.speaks {x : VarVal} (h : TellsValue x) : Speaks x := by
  rcases h with h | h
  · refine Or.inl ⟨?_, h.2⟩
    intro e
    have := h.1
    rw [e] at this
    simp [Val.truthy] at this
  · exact Or.inr (Or.inl h)

theorem TellsValue.merge {x : VarVal} (h : TellsValue x) (t : Slot) : mergeParts (.vv x) t = x := by
  have : (x.values.truthy || optStrTruthy x.vars) = true := by
    rcases h with h | ⟨u, h1, h2⟩
    · simp [h.1]
    · simp [h1, optStrTruthy, h2]
  simp [mergeParts, splitting, this]

theorem hard_of_required {v : Val} (h : ¬ NoRequirement v) : Hard v := by
  cases v <;> simp_all [NoRequirement, Hard, Val.truthy]

theorem Spec.PlainAction.says {x : VarVal} (h : PlainAction x) : TellsValue x := by
  rcases h.one with ⟨_, h⟩ | ⟨_, y, h1, h2⟩
  · exact Or.inl (hard_of_required h)
  · exact Or.inr ⟨y, h2, h1⟩

theorem Spec.PlainAction.good {x : VarVal} (h : PlainAction x) : GoodVal x.values := by
  refine ⟨h.data, fun e => ?_⟩
  rcases h.one with ⟨_, h⟩ | ⟨h, _⟩
  · rw [e] at h; exact h trivial
  · rw [e] at h; cases h

theorem Spec.PlainAction.plainVals {x : VarVal} (h : PlainAction x) : PlainSlotVals (.vv x) := by
  intro x' hx
  cases hx
  exact ⟨h.data, h.good.2, by rw [h.plain.2]; simp⟩

theorem Spec.PlainAction.something {x : VarVal} (h : PlainAction x) : SaysSomething x := by
  refine ⟨?_, ?_, ?_⟩
  · rcases h.one with ⟨_, h⟩ | ⟨h, _⟩
    · exact Or.inr h
    · exact Or.inl h
  · rcases h.one with ⟨h, _⟩ | ⟨_, y, h1, h2⟩
    · rw [h]; simp
    · rw [h2]; simpa using h1
  · rcases h.one with ⟨_, h⟩ | ⟨_, y, h1, h2⟩
    · refine Or.inl (fun e => ?_)
      rw [e] at h; exact h trivial
    · refine Or.inr (Or.inl ?_)
      rw [h2]; simp

/-- The slot that says nothing. -/
def silent : VarVal := ⟨.none, Option.none, [], []⟩

theorem silent_speaks : ¬ Speaks silent := by
  rintro (⟨h, _⟩ | ⟨y, h, _⟩ | h | h) <;> simp [silent] at h

theorem silent_merge (t : Slot) : mergeParts (.vv silent) t = splitting t := by
  simp [mergeParts, splitting, silent, Val.truthy, optStrTruthy]

theorem rename_empty {E : PyEnv} {name : String} {used : List String} {x : VarVal} (h : renameSlot E name used .empty = .ok x) :
    x = silent := by
  have o1 : E.ord [] = [] := by simpa using E.perm []
  rw [renameSlot_form h]
  simp [splitting, silent, optStrTruthy, o1]

theorem subst_silent {P : Py} {m : List (String × String)} {val : List (String × Val)} {s : Slot} {x : VarVal}
    (hs : splitting s = silent) (h : substSlot P m val s = .ok x) : x = silent := by
  have o1 : P.ord [] = [] := by simpa using P.perm []
  have o2 : P.vord [] = [] := by simpa using P.vperm []
  simp only [substSlot, hs, silent, optStrTruthy, List.filter_nil, List.map_nil, List.dedup_nil, List.filterMap_nil,
    List.foldl_nil, o1, o2] at h
  simp at h
  exact h.symm

theorem rename_says {E : PyEnv} {name : String} {used : List String} {x y : VarVal} (h : renameSlot E name used (.vv x) = .ok y)
    (hx : TellsValue x) : TellsValue y := by
  rw [renameSlot_form h]
  rcases hx with hx | ⟨u, h1, h2⟩
  · exact Or.inl hx
  · refine Or.inr ⟨ruleVar name u, ?_, ruleVar_ne name u⟩
    simp [splitting, h1, optStrTruthy, h2]

theorem substSlot_cases {P : Py} {m : List (String × String)} {val : List (String × Val)} {x z : VarVal}
    (h : substSlot P m val (.vv x) = .ok z) :
    z.negvars = P.ord ((x.negvars.filter (fun y => (alook y val).isNone)).map (newVar m)).dedup ∧
    z.negvalues = P.vord ((x.negvars.filterMap (fun y => alook y val)).foldl (addVal P.H) (x.negvalues.foldl (addVal P.H) [])) ∧
    ((z.values = x.values ∧ (z.vars = Option.none ∨ (∃ u, x.vars = some u ∧ u ≠ "" ∧ z.vars = some (newVar m u)))) ∧
        (z.vars = Option.none → x.values.truthy = true ∨ ¬ ∃ u, x.vars = some u ∧ u ≠ "") ∨
      ∃ u v, alook u val = some v ∧ z.values = v) := by
  simp only [substSlot] at h
  have hsp : splitting (.vv x) = x := rfl
  rw [hsp] at h
  by_cases hv : optStrTruthy x.vars = true
  · simp only [hv, if_true] at h
    obtain ⟨u, hu, hne⟩ : ∃ u, x.vars = some u ∧ u ≠ "" := by
      rcases hu : x.vars with _ | u
      · rw [hu] at hv; simp [optStrTruthy] at hv
      · exact ⟨u, rfl, by rintro rfl; rw [hu] at hv; simp [optStrTruthy] at hv⟩
    simp only [hu, Option.getD_some] at h
    rcases hl : alook u val with _ | v
    · rw [hl] at h
      cases h
      exact ⟨rfl, rfl, Or.inl ⟨⟨rfl, Or.inr ⟨u, hu, hne, rfl⟩⟩, by simp⟩⟩
    · rw [hl] at h
      simp only at h
      by_cases hxt : x.values.truthy = true
      · simp only [hxt, if_true] at h
        by_cases he : pyEq P.H v x.values = true
        · simp only [he, if_true] at h; cases h; exact ⟨rfl, rfl, Or.inl ⟨⟨rfl, Or.inl rfl⟩, fun _ => Or.inl hxt⟩⟩
        · simp only [he, if_false, Bool.false_eq_true] at h; cases h
      · simp only [hxt, if_false, Bool.false_eq_true] at h; cases h; exact ⟨rfl, rfl, Or.inr ⟨u, v, hl, rfl⟩⟩
  · simp only [hv, if_false, Bool.false_eq_true] at h
    cases h
    refine ⟨rfl, rfl, Or.inl ⟨⟨rfl, Or.inl rfl⟩, fun _ => Or.inr ?_⟩⟩
    rintro ⟨u, h1, h2⟩
    exact hv (by simp [h1, optStrTruthy, h2])

theorem subst_says {P : Py} {st : MatchSt} (snd : SoundMatch st) {x z : VarVal}
    (h : substSlot P st.matched st.valued (.vv x) = .ok z) (he : x.values ≠ .empty) (hx : TellsValue x) : TellsValue z := by
  obtain ⟨_, _, ⟨⟨h1, h2⟩, h3⟩ | ⟨u, v, h1, h2⟩⟩ := substSlot_cases h
  · rcases h2 with h2 | ⟨u, _, hu, h2⟩
    · rcases hx with hx | hx
      · exact Or.inl (h1 ▸ hx)
      · rcases h3 h2 with h3 | h3
        · exact Or.inl (by rw [h1]; exact ⟨h3, he⟩)
        · exact absurd hx h3
    · exact Or.inr ⟨_, h2, newVar_ne snd.vars hu⟩
  · exact Or.inl (by rw [h2]; exact (snd.vals u v h1).2)

/-- Substitution loses no negations. -/
theorem subst_plain {P : Py} (cf : P.H.CollisionFree) {st : MatchSt} (snd : SoundMatch st) {x z : VarVal} (hp : ∀ v ∈ x.negvalues, PlainVal v)
    (h : substSlot P st.matched st.valued (.vv x) = .ok z) (hz : z.negvars = [] ∧ z.negvalues = []) :
    x.negvars = [] ∧ x.negvalues = [] := by
  obtain ⟨h1, h2, _⟩ := substSlot_cases h
  rw [h1, h2] at hz
  have hpl : ∀ v ∈ x.negvars.filterMap (fun z => alook z st.valued), PlainVal v := by
    intro v hv
    obtain ⟨z, _, hz⟩ := List.mem_filterMap.1 hv
    exact (snd.vals z v hz).1
  obtain ⟨f1, f2, f3, f4⟩ := addVals_facts cf x.negvalues [] (by simp) hp
  obtain ⟨g1, g2, g3, g4⟩ := addVals_facts cf (x.negvars.filterMap (fun z => alook z st.valued)) (x.negvalues.foldl (addVal P.H) []) f4 hpl
  constructor
  · rw [List.eq_nil_iff_forall_not_mem]
    intro y hy
    rcases hl : alook y st.valued with _ | v
    · have : newVar st.matched y ∈ ((x.negvars.filter (fun y => (alook y st.valued).isNone)).map (newVar st.matched)).dedup := by
        rw [List.mem_dedup]
        exact List.mem_map.2 ⟨y, List.mem_filter.2 ⟨hy, by simp [hl]⟩, rfl⟩
      rw [← (P.perm _).mem_iff, hz.1] at this
      simp at this
    · obtain ⟨w, hw, _⟩ := g3 v (List.mem_filterMap.2 ⟨y, hy, hl⟩)
      rw [← (P.vperm _).mem_iff, hz.2] at hw
      simp at hw
  · rw [List.eq_nil_iff_forall_not_mem]
    intro v hv
    obtain ⟨w, hw, _⟩ := f3 v hv
    have := g2 w hw
    rw [← (P.vperm _).mem_iff, hz.2] at this
    simp at this

/-! ## What actions give -/

theorem gives_true {σ : String → Option Val} {x : VarVal} {w : Val} (h : GivesVal σ x w) : SlotTrue σ (.vv x) w := by
  refine ⟨h.var, fun y v hy => by rw [h.plain.1] at hy; simp at hy, ?_, fun v hv => by rw [h.plain.2] at hv; simp at hv⟩
  by_cases hn : x.values = .none
  · exact Or.inl (by rw [hn]; trivial)
  · exact Or.inr (h.lit hn)

theorem true_gives {σ : String → Option Val} {x : VarVal} {w : Val} (hx : PlainAction x) (h : SlotTrue σ (.vv x) w) : GivesVal σ x w := by
  refine ⟨hx.plain, fun hn => ?_, h.1⟩
  rcases h.2.2.1 with hr | hr
  · rcases hx.one with ⟨_, h⟩ | ⟨h, _⟩
    · exact absurd hr h
    · exact absurd h hn
  · exact hr

theorem gives_subst {P : Py} (cf : P.H.CollisionFree) {st : MatchSt} (snd : SoundMatch st) {σ : String → Option Val} {x z : VarVal}
    {w : Val} (hx : PlainAction x) (h : substSlot P st.matched st.valued (.vv x) = .ok z) (hg : GivesVal σ z w) (hw : DataVal w) :
    GivesVal (pull DataVal st.matched st.valued σ) x w :=
  true_gives hx (slotTrue_subst cf snd.vars snd.vals hx.plainVals h (gives_true hg) hw)

theorem gives_rename {P : Py} (cf : P.H.CollisionFree) {st : MatchSt} (snd : SoundMatch st) {σ : String → Option Val} {x y z : VarVal}
    {w : Val} {name : String} {used : List String} (hx : PlainAction x) (hr : renameSlot P.toPyEnv name used (.vv x) = .ok y)
    (h : substSlot P st.matched st.valued (.vv y) = .ok z) (hg : GivesVal σ z w) (hw : DataVal w) :
    GivesVal (fun n => pull DataVal st.matched st.valued σ (ruleVar name n)) x w :=
  true_gives hx (slotTrue_rename hr (slotTrue_subst cf snd.vars snd.vals (plain_rename hr hx.plainVals) h (gives_true hg) hw))

/-- The same assignment for the variables of an action does the same. -/
theorem gives_congr {σ τ : String → Option Val} {x : VarVal} {w : Val} (h : GivesVal σ x w) (he : ∀ y, x.vars = some y → τ y = σ y) :
    GivesVal τ x w :=
  ⟨h.plain, h.lit, fun y hy hne => by rw [he y hy]; exact h.var y hy hne⟩

theorem changed_congr {σ τ : String → Option Val} {c d d' : Chunk} (h : Changed σ c d d')
    (he : ∀ n x y, (n, SlotOf.vv x) ∈ c.slots → x.vars = some y → τ y = σ y) : Changed τ c d d' :=
  ⟨h.typ, h.data, h.names, fun n x w hm hw => gives_congr (h.given n x w hm hw) (fun y hy => he n x y hm.1 hy), h.kept⟩

/-! ## What is known after substitution -/

theorem substSlotVals_look {P : Py} {st : MatchSt} {b : String} : ∀ {sv sv'' : SlotVals}, substSlotVals P st sv = .ok sv'' →
    (alook b sv = Option.none → alook b sv'' = Option.none) ∧ (alook b sv = some .nothing → alook b sv'' = some .nothing) ∧
    ∀ d, alook b sv = some (.dict d) → ∃ d', mapSlots (substSlot P st.matched st.valued) d = .ok d' ∧
      alook b sv'' = some (.dict (d'.map (fun p => (p.1, .vv p.2))))
  | [], sv'', h => by simp only [substSlotVals, Except.ok.injEq] at h; subst h; simp [alook]
  | (a, i) :: r, sv'', h => by
    simp only [substSlotVals] at h
    split at h
    · cases h
    rename_i i' hi
    rcases hr : substSlotVals P st r with e | r'
    · rw [hr] at h; cases h
    rw [hr] at h
    cases h
    have ih := substSlotVals_look (b := b) hr
    by_cases hb : a = b
    · subst hb
      simp only [alook, if_true]
      refine ⟨by simp, fun e => ?_, fun d e => ?_⟩
      · cases e; simp only [Except.ok.injEq] at hi; rw [hi]
      · cases e
        simp only [Except.map] at hi
        rcases hm : mapSlots (substSlot P st.matched st.valued) d with e | d'
        · rw [hm] at hi; cases hi
        · rw [hm] at hi; cases hi; exact ⟨d', rfl, rfl⟩
    · simp only [alook, if_neg hb]
      exact ih

theorem mapSlots_look {f : Slot → Except PyErr VarVal} {n : String} : ∀ {l : Slots} {d : List (String × VarVal)}, mapSlots f l = .ok d →
    (alook n l = Option.none → alook n (d.map (fun p => (p.1, (SlotOf.vv p.2 : Slot)))) = Option.none) ∧
    ∀ s, alook n l = some s → ∃ y, f s = .ok y ∧ alook n (d.map (fun p => (p.1, (SlotOf.vv p.2 : Slot)))) = some (.vv y)
  | [], d, h => by simp only [mapSlots, Except.ok.injEq] at h; subst h; simp [alook]
  | (m, s) :: r, d, h => by
    simp only [mapSlots] at h
    rcases hf : f s with e | x
    · rw [hf] at h; cases h
    rw [hf] at h
    rcases hr : mapSlots f r with e | xs
    · rw [hr] at h; cases h
    rw [hr] at h
    cases h
    by_cases hb : m = n
    · subst hb
      simp only [alook, List.map_cons, if_true]
      exact ⟨by simp, fun s' e => by cases e; exact ⟨x, hf, rfl⟩⟩
    · simp only [alook, List.map_cons, if_neg hb]
      exact mapSlots_look hr

theorem knownSlot_none {P : Py} {st : MatchSt} {sv sv'' : SlotVals} {b : String} (h : substSlotVals P st sv = .ok sv'')
    (hb : alook b sv = Option.none ∨ alook b sv = some .nothing) (n : String) : knownSlot sv'' b n = Option.none := by
  obtain ⟨h1, h2, _⟩ := substSlotVals_look (b := b) h
  rcases hb with hb | hb
  · simp only [knownSlot, h1 hb]
  · simp only [knownSlot, h2 hb]

theorem knownSlot_dict {P : Py} {st : MatchSt} {sv sv'' : SlotVals} {b : String} {d : Slots} (h : substSlotVals P st sv = .ok sv'')
    (hb : alook b sv = some (.dict d)) (n : String) :
    (alook n d = Option.none → knownSlot sv'' b n = Option.none) ∧
    ∀ t, alook n d = some t → ∃ y, substSlot P st.matched st.valued t = .ok y ∧ knownSlot sv'' b n = some (.vv y) := by
  obtain ⟨d', hm, hd'⟩ := (substSlotVals_look (b := b) h).2.2 d hb
  simp only [knownSlot, hd']
  exact mapSlots_look hm

/-! ## The compiled rule -/

section
variable {P : Py} {reg : Reg} {name2 : String} {l1 l2 lhs : List (Key × LVal)} {r1 r2 rhs : List (Key × RVal)}
  {sv : SlotVals} {bufs : List (String × CBuf)}

/-- Chunks of the action have all slots of their types. -/
def FullActs (reg : Reg) (r : List (Key × RVal)) : Prop :=
  ∀ b c n, ((⟨'=', b⟩ : Key), RVal.chunk c) ∈ r → n ∈ (alook c.typ reg).getD [] → n ∈ c.slots.map Prod.fst

theorem recorded_noRetr (h : Recorded l1 r1 sv) : (∀ b d c, (b, SlotInfo.retr d c) ∉ sv) ∧ NoRetr sv := by
  have key : NoRetr sv := by
    intro b d c e
    by_cases hb : ∃ c, ((⟨'=', b⟩ : Key), RVal.chunk c) ∈ r1
    · obtain ⟨c, hc⟩ := hb
      obtain ⟨d, hd, _⟩ := h.acted b c hc
      rw [e] at hd; cases hd
    · rcases h.rest b (fun c hc => hb ⟨c, hc⟩) with h | h <;> rw [e] at h <;> cases h
  exact ⟨fun b d c hm => key b d c (alook_of_mem h.keys hm), key⟩

theorem Compiling.noRetrieval (C : Compiling P reg l1 r1 l2 r2 name2 sv bufs lhs rhs) (h : Recorded l1 r1 sv) :
    C.sc.retrieval = Option.none := by
  rcases he : C.sc.retrieval with _ | b
  · rfl
  · rcases scan_retrieval C.hsc he with e | ⟨d, c, hm⟩
    · cases e
    · exact absurd hm ((recorded_noRetr h).1 b d c)

/-- The renamed conditions of the second rule are tests and queries. -/
theorem Compiling.testsOnly (C : Compiling P reg l1 r1 l2 r2 name2 sv bufs lhs rhs) (g2 : GoodRule reg l2 r2)
    (hc : ∀ k v, (k, v) ∈ l2 → k.code = '=' ∨ k.code = '?') : TestsOnly C.m2 := by
  intro k v hm
  obtain ⟨u, hu, hf⟩ := mapped_from C.hm2 hm
  rcases hc k u hu with hk | hk
  · left
    obtain ⟨c, rfl, _⟩ := g2.lhs k u hu (by simp [hk])
    refine ⟨hk, ?_⟩
    simp only [mapLVal, hk] at hf
    rw [if_pos (by decide)] at hf
    simp only [Except.map] at hf
    split at hf
    · cases hf
    · cases hf; exact ⟨_, rfl⟩
  · exact Or.inr hk

theorem Compiling.sameSv (C : Compiling P reg l1 r1 l2 r2 name2 sv bufs lhs rhs) (g2 : GoodRule reg l2 r2)
    (hd2 : DictBody ⟨.ok l2, .ok r2⟩) (hc : ∀ k v, (k, v) ∈ l2 → k.code = '=' ∨ k.code = '?') (h : Recorded l1 r1 sv) :
    C.sv' = sv :=
  (matchRules_other (S := []) (C.testsOnly g2 hc) (by rw [keys_mapped C.hm2]; exact (hd2.lhs l2 rfl).1) (recorded_noRetr h).2 C.hst
    (fun _ _ _ _ _ _ v hv => by simp at hv)).2

/-- What the compiled rule does to a buffer that the second rule modifies. -/
theorem Compiling.act2 (C : Compiling P reg l1 r1 l2 r2 name2 sv bufs lhs rhs) (hr : RegOk P.toPyEnv reg) (g2 : GoodRule reg l2 r2)
    (hf : FullActs reg r2) {b : String} {c2 : Chunk} (hm : ((⟨'=', b⟩ : Key), RVal.chunk c2) ∈ r2) :
    ∃ c', ((⟨'=', b⟩ : Key), RVal.chunk c') ∈ rhs ∧ c'.typ = c2.typ ∧ (∀ n s', (n, s') ∈ c'.slots ↔
      ∃ s x z, (n, s) ∈ c2.slots ∧ renameSlot P.toPyEnv name2 C.sc.used s = .ok x ∧
        substSlot P C.st.matched C.st.valued (.vv x) = .ok z ∧
        s' = .vv (match knownSlot C.sv'' b n with | some t => mergeParts (.vv z) t | Option.none => z)) ∧
      ∀ n s, (n, s) ∈ c2.slots → ∃ x z, renameSlot P.toPyEnv name2 C.sc.used s = .ok x ∧
        substSlot P C.st.matched C.st.valued (.vv x) = .ok z := by
  obtain ⟨c, e, hk⟩ := g2.rhs _ _ hm (by simp)
  cases e
  obtain ⟨w, hw, hfw⟩ := mapped_mem C.hn2 hm
  obtain ⟨cr, rfl, hcr⟩ := mapRVal_chunk rfl hfw
  obtain ⟨u, hu, hfu⟩ := mapped_mem C.hr2 hw
  obtain ⟨cs, rfl, hcs⟩ := mapRVal_chunk rfl hfu
  obtain ⟨tr, nr, ir, er, fr⟩ := mapChunk_full hr hk.1 (fun n => hf b c2 n hm) hcr
  obtain ⟨ts, ns, is, es, fs⟩ := mapChunk_full hr nr fr hcs
  have both : ∀ n s', (n, s') ∈ cs.slots ↔ ∃ s x z, (n, s) ∈ c2.slots ∧ renameSlot P.toPyEnv name2 C.sc.used s = .ok x ∧
        substSlot P C.st.matched C.st.valued (.vv x) = .ok z ∧ s' = .vv z := by
    intro n s'
    rw [is]
    constructor
    · rintro ⟨s, z, hs, hz, rfl⟩
      obtain ⟨s0, x, hs0, hx, rfl⟩ := (ir n s).1 hs
      exact ⟨s0, x, z, hs0, hx, hz, rfl⟩
    · rintro ⟨s, x, z, hs, hx, hz, rfl⟩
      exact ⟨.vv x, z, (ir n _).2 ⟨s, x, hs, hx, rfl⟩, hz, rfl⟩
  have some2 : ∀ n s, (n, s) ∈ c2.slots → ∃ x z, renameSlot P.toPyEnv name2 C.sc.used s = .ok x ∧
      substSlot P C.st.matched C.st.valued (.vv x) = .ok z := by
    intro n s hs
    obtain ⟨x, hx, hxm⟩ := er n s hs
    obtain ⟨z, hz, _⟩ := es n _ hxm
    exact ⟨x, z, hx, hz⟩
  obtain ⟨c', hc', hcase⟩ := collapseRhs2_mem C.hq hu
  refine ⟨c', collapseRhs1_keeps C.hrhs hc', ?_⟩
  rcases hcase with ⟨rfl, hb⟩ | hmk
  · refine ⟨ts.trans tr, fun n s' => ?_, some2⟩
    have : knownSlot C.sv'' b n = Option.none := by simp only [knownSlot, hb]
    simp only [this]
    exact both n s'
  · let g : String × Slot → String × VarVal := fun p =>
      (p.1, match knownSlot C.sv'' b p.1 with | some t => mergeParts p.2 t | Option.none => splitting p.2)
    have hlist : (cs.slots.map (fun p => match knownSlot C.sv'' b p.1 with
          | some t => (p.1, SlotArg.vv (mergeParts p.2 t))
          | Option.none => (p.1, slotArg p.2))) = (cs.slots.map g).map (fun p => (p.1, SlotArg.vv p.2)) := by
      rw [List.map_map]
      apply List.map_congr_left
      rintro ⟨n, s⟩ hs
      obtain ⟨_, _, z, _, _, _, rfl⟩ := (both n s).1 hs
      simp only [Function.comp, g]
      rcases knownSlot C.sv'' b n with _ | t <;> rfl
    replace hmk : mkChunk P.toPyEnv reg cs.typ ((cs.slots.map g).map (fun p => (p.1, SlotArg.vv p.2))) = .ok c' := by
      rw [← hlist, ← hmk]
      congr 2
    have hkeys : (cs.slots.map g).map Prod.fst = cs.slots.map Prod.fst := by
      rw [List.map_map]; rfl
    obtain ⟨t', _, i'⟩ := mkChunk_full hr (by rw [hkeys]; exact ns) (by rw [hkeys]; exact fs) hmk
    refine ⟨t'.trans (ts.trans tr), fun n s' => ?_, some2⟩
    rw [i']
    constructor
    · rintro ⟨y, hy, rfl⟩
      obtain ⟨⟨n', s⟩, hs, he⟩ := List.mem_map.1 hy
      simp only [g, Prod.mk.injEq] at he
      obtain ⟨rfl, rfl⟩ := he
      obtain ⟨s0, x, z, h1, h2, h3, rfl⟩ := (both _ _).1 hs
      exact ⟨s0, x, z, h1, h2, h3, rfl⟩
    · rintro ⟨s0, x, z, h1, h2, h3, rfl⟩
      exact ⟨_, List.mem_map.2 ⟨(n, .vv z), (both _ _).2 ⟨s0, x, z, h1, h2, h3, rfl⟩, rfl⟩, rfl⟩

/-- What the compiled rule does to a buffer that only the first rule modifies. -/
theorem Compiling.act1 (C : Compiling P reg l1 r1 l2 r2 name2 sv bufs lhs rhs) (hr : RegOk P.toPyEnv reg) (g1 : GoodRule reg l1 r1)
    (g2 : GoodRule reg l2 r2) (hd1 : DictBody ⟨.ok l1, .ok r1⟩) (hf : FullActs reg r1) (ho1 : ∀ k v, (k, v) ∈ r1 → k.code = '=')
    (ho2 : ∀ k v, (k, v) ∈ r2 → k.code = '=') (hret : C.sc.retrieval = Option.none) {b : String} {c : Chunk}
    (hm : ((⟨'=', b⟩ : Key), RVal.chunk c) ∈ r1) (hno : ∀ c2, ((⟨'=', b⟩ : Key), RVal.chunk c2) ∉ r2) :
    ∃ c', ((⟨'=', b⟩ : Key), RVal.chunk c') ∈ rhs ∧ c'.typ = c.typ ∧ (∀ n s', (n, s') ∈ c'.slots ↔
      ∃ s z, (n, s) ∈ c.slots ∧ substSlot P C.st.matched C.st.valued s = .ok z ∧ s' = .vv z) ∧
      ∀ n s, (n, s) ∈ c.slots → ∃ z, substSlot P C.st.matched C.st.valued s = .ok z := by
  obtain ⟨c0, e, hk⟩ := g1.rhs _ _ hm (by simp)
  cases e
  obtain ⟨w, hw, hfw⟩ := mapped_mem C.hr1 hm
  obtain ⟨cs, rfl, hcs⟩ := mapRVal_chunk rfl hfw
  obtain ⟨ts, ns, is, es, fs⟩ := mapChunk_full hr hk.1 (fun n => hf b c n hm) hcs
  have hrhs := C.hrhs
  rw [hret] at hrhs
  obtain ⟨c', hc', hmk⟩ := collapseRhs1_adds hrhs (by rw [keys_mapped C.hr1]; exact (hd1.rhs r1 rfl).1)
    (fun m u h => by obtain ⟨v, hv, _⟩ := mapped_from C.hr1 h; exact ho1 m v hv) hw (by
      intro m u hmu e
      have hkq : m ∈ r2.map Prod.fst := by
        rw [← keys_mapped C.hn2, ← keys_mapped C.hr2, ← (collapseRhs2_ok C.hq).1]
        exact List.mem_map.2 ⟨_, hmu, rfl⟩
      obtain ⟨⟨m', v⟩, hv, rfl⟩ := List.mem_map.1 hkq
      simp only at e
      have hcode := ho2 _ _ hv
      rw [key_eta hcode, e] at hv
      obtain ⟨c2, rfl, _⟩ := g2.rhs _ _ hv (by simp)
      exact hno c2 hv)
  refine ⟨c', hc', ?_⟩
  have hlist : (cs.slots.map (fun p => (p.1, slotArg p.2))) =
      (cs.slots.map (fun p => (p.1, splitting p.2))).map (fun p => (p.1, SlotArg.vv p.2)) := by
    rw [List.map_map]
    apply List.map_congr_left
    rintro ⟨n, s⟩ hs
    obtain ⟨_, z, _, _, rfl⟩ := (is n s).1 hs
    rfl
  rw [hlist] at hmk
  have hkeys : (cs.slots.map (fun p => (p.1, splitting p.2))).map Prod.fst = cs.slots.map Prod.fst := by
    rw [List.map_map]; rfl
  obtain ⟨t', _, i'⟩ := mkChunk_full hr (by rw [hkeys]; exact ns) (by rw [hkeys]; exact fs) hmk
  refine ⟨t'.trans ts, fun n s' => ?_, fun n s hs => by obtain ⟨z, hz, _⟩ := es n s hs; exact ⟨z, hz⟩⟩
  rw [i', ← is]
  constructor
  · rintro ⟨y, hy, rfl⟩
    obtain ⟨⟨n', s⟩, hs, he⟩ := List.mem_map.1 hy
    simp only [Prod.mk.injEq] at he
    obtain ⟨rfl, rfl⟩ := he
    obtain ⟨_, z, _, _, rfl⟩ := (is _ _).1 hs
    exact hs
  · intro hs
    obtain ⟨_, z, _, _, rfl⟩ := (is _ _).1 hs
    exact ⟨z, List.mem_map.2 ⟨(n, .vv z), hs, rfl⟩, rfl⟩

/-- The compiled rule modifies only what one of the rules modifies. -/
theorem Compiling.acts_only (C : Compiling P reg l1 r1 l2 r2 name2 sv bufs lhs rhs) (g1 : GoodRule reg l1 r1)
    (g2 : GoodRule reg l2 r2) {b : String} {v : RVal} (hm : ((⟨'=', b⟩ : Key), v) ∈ rhs) :
    (∃ c, ((⟨'=', b⟩ : Key), RVal.chunk c) ∈ r1) ∨ ∃ c, ((⟨'=', b⟩ : Key), RVal.chunk c) ∈ r2 := by
  rcases collapseRhs1_only C.hrhs hm with h | h
  · right
    rw [(collapseRhs2_ok C.hq).1, keys_mapped C.hr2, keys_mapped C.hn2] at h
    obtain ⟨⟨m', u⟩, hv, rfl⟩ := List.mem_map.1 h
    obtain ⟨c2, rfl, _⟩ := g2.rhs _ _ hv (by simp)
    exact ⟨c2, hv⟩
  · left
    rw [keys_mapped C.hr1] at h
    obtain ⟨⟨m', u⟩, hv, rfl⟩ := List.mem_map.1 h
    obtain ⟨c2, rfl, _⟩ := g1.rhs _ _ hv (by simp)
    exact ⟨c2, hv⟩

theorem ruleVar_inj {name u v : String} (h : ruleVar name u = ruleVar name v) : u = v := by
  simp only [ruleVar, String.append_assoc] at h
  exact String.append_left_inj _ |>.1 h

theorem rename_vars {E : PyEnv} {name : String} {used : List String} {s : Slot} {y : VarVal} {v : String}
    (h : renameSlot E name used s = .ok y) (hv : y.vars = some v) : ∃ x u, s = .vv x ∧ x.vars = some u ∧ v = ruleVar name u := by
  rw [renameSlot_form h] at hv
  simp only at hv
  split at hv
  · rename_i ht
    cases s with
    | empty => simp [splitting, optStrTruthy] at ht
    | vv x =>
      simp only [Option.some.injEq] at hv
      have hsp : splitting (.vv x) = x := rfl
      rw [hsp] at ht hv
      rcases hu : x.vars with _ | u
      · rw [hu] at ht; simp [optStrTruthy] at ht
      · exact ⟨x, u, rfl, hu, by rw [hu] at hv; exact hv.symm⟩
  · cases hv

theorem mapLVal_test {E : PyEnv} {reg : Reg} {f : Slot → Except PyErr VarVal} {b : String} {c : Chunk} {w : LVal}
    (h : mapLVal E reg f ⟨'=', b⟩ (.chunk c) = .ok w) : ∃ c', w = .chunk c' ∧ mapChunk E reg f c = .ok c' := by
  simp only [mapLVal] at h
  rw [if_pos (by decide)] at h
  simp only [Except.map] at h
  rcases hc : mapChunk E reg f c with e | c1
  · rw [hc] at h; cases h
  · rw [hc] at h; cases h; exact ⟨c1, rfl, rfl⟩

/-- Where the second rule tests a slot about which something is known after the first rule, the variables of both are replaced by the
same. -/
theorem Compiling.tied (C : Compiling P reg l1 r1 l2 r2 name2 sv bufs lhs rhs) (hr : RegOk P.toPyEnv reg) (g2 : GoodRule reg l2 r2)
    (hd2 : DictBody ⟨.ok l2, .ok r2⟩) (hc : ∀ k v, (k, v) ∈ l2 → k.code = '=' ∨ k.code = '?') (hR : Recorded l1 r1 sv)
    (hF : FitTogether name2 l1 r1 l2 r2 sv) {b n : String} {x y : VarVal} (hM : Meeting r1 l2 sv b n x y) :
    ∃ x', renameSlot P.toPyEnv name2 C.sc.used (.vv x) = .ok x' ∧
      Tied (slotVarSet x' y) (if x'.values.truthy then x'.values else y.values) C.st ∧
      (x'.values.truthy = true → y.values.truthy = true → pyEq P.H x'.values y.values = true) := by
  obtain ⟨c, c2, d, h1, h2, h3, h4, h5⟩ := id hM
  obtain ⟨c2', e, hk2⟩ := g2.lhs _ _ h2 (by simp)
  cases e
  obtain ⟨w, hw, hfw⟩ := mapped_mem C.hm2 h2
  obtain ⟨cr, rfl, hcr⟩ := mapLVal_test hfw
  obtain ⟨_, nr, i1, _, _⟩ := mapChunk_ok hr hk2.1 hcr
  obtain ⟨x', hx', hs⟩ := i1 n _ h3
  have hknown : knownFor sv b cr.slots = d := by simp only [knownFor, h4]
  have hset : tieSet (knownFor sv b cr.slots) n (.vv x') = slotVarSet x' y := by
    simp only [tieSet, hknown, h5, Option.getD_some]; rfl
  have hval : tieVal (knownFor sv b cr.slots) n (.vv x') = if x'.values.truthy then x'.values else y.values := by
    simp only [tieVal, hknown, h5, Option.getD_some]; rfl
  have := matchRules_self nr hs (C.testsOnly g2 hc) (by rw [keys_mapped C.hm2]; exact (hd2.lhs l2 rfl).1) (recorded_noRetr hR).2 C.hst hw
    (fun v _ => by simp [alook]) (by
      rw [hset]
      intro b' c' n' s' hm' hs' hne v hv hv'
      obtain ⟨u2, hu2, hfu2⟩ := mapped_from C.hm2 hm'
      obtain ⟨c2', rfl, hk2'⟩ := g2.lhs _ _ hu2 (by simp)
      obtain ⟨c'', e, hcr'⟩ := mapLVal_test hfu2
      cases e
      obtain ⟨_, nr', _, i2, _⟩ := mapChunk_ok hr hk2'.1 hcr'
      obtain ⟨_, hvv⟩ := mem_slotVarSet hv
      obtain ⟨_, hvv'⟩ := mem_slotVarSet hv'
      -- a variable of the renamed rule
      have own : ∀ t : Slot, (n', t) ∈ c'.slots → (splitting t).vars = some v →
          ∃ x0 u, (n', SlotOf.vv x0) ∈ c2'.slots ∧ x0.vars = some u ∧ v = ruleVar name2 u := by
        intro t ht hvt
        rcases i2 n' t ht with rfl | ⟨s0, z0, hs0, hz0, rfl⟩
        · simp [splitting] at hvt
        · obtain ⟨x0, u, rfl, hu, hve⟩ := rename_vars hz0 hvt
          exact ⟨x0, u, hs0, hu, hve⟩
      -- the other slot
      have other : (∃ x0 u, (n', SlotOf.vv x0) ∈ c2'.slots ∧ x0.vars = some u ∧ v = ruleVar name2 u) ∨
          ∃ d' y', alook b' sv = some (.dict d') ∧ alook n' d' = some (.vv y') ∧ y'.vars = some v := by
        rcases hvv' with hvv' | hvv'
        · exact Or.inl (own s' hs' hvv')
        · rcases ha : alook b' sv with _ | i
          · simp only [knownFor, ha] at hvv'
            rw [alook_of_mem nr' hs'] at hvv'
            exact Or.inl (own s' hs' hvv')
          · cases i with
            | nothing => simp [knownFor, ha, alook, splitting] at hvv'
            | retr d c => exact absurd ha ((recorded_noRetr hR).2 b' d c)
            | dict d' =>
              simp only [knownFor, ha] at hvv'
              rcases hn' : alook n' d' with _ | t
              · simp [hn', splitting] at hvv'
              · cases t with
                | empty => simp [hn', splitting] at hvv'
                | vv y' =>
                  rw [hn'] at hvv'
                  exact Or.inr ⟨d', y', rfl, hn', hvv'⟩
      rcases hvv with hvv | hvv
      · obtain ⟨x0, u, e, hu, hve⟩ := rename_vars hx' hvv
        cases e
        rcases other with ⟨x1, u1, hs1, hu1, hve1⟩ | ⟨d', y', hd', hy', hv1⟩
        · have : u = u1 := ruleVar_inj (hve.symm.trans hve1)
          subst this
          exact hne (hF.once2 b n x y u b' c2' n' x1 hM hu hu2 hs1 hu1)
        · exact hF.fresh b' d' n' y' v u hd' hy' hv1 hve
      · rcases other with ⟨x1, u1, hs1, hu1, hve1⟩ | ⟨d', y', hd', hy', hv1⟩
        · exact hF.fresh b d n y v u1 h4 h5 hvv hve1
        · exact hne (hF.once1 b n x y v b' d' n' y' hM hvv ⟨c2', hu2⟩ hd' hy' hv1))
  rw [hset, hval] at this
  refine ⟨x', hx', this.1, fun a1 a2 => ?_⟩
  have h6 := this.2 a1
  simp only [hknown, h5, Option.getD_some] at h6
  exact h6 a2

/-! ## The buffers between the two rules -/

/-- Everything that is assumed about the two rules and the buffers. -/
structure TwoRules (P : Py) (reg : Reg) (l1 : List (Key × LVal)) (r1 : List (Key × RVal)) (l2 : List (Key × LVal))
    (r2 : List (Key × RVal)) (name2 : String) (sv : SlotVals) (faces : Faces) : Prop where
  cf : P.H.CollisionFree
  types : RegOk P.toPyEnv reg
  dict1 : DictBody ⟨.ok l1, .ok r1⟩
  dict2 : DictBody ⟨.ok l2, .ok r2⟩
  good1 : GoodRule reg l1 r1
  good2 : GoodRule reg l2 r2
  queries1 : QueriesAreDicts l1
  queries2 : QueriesAreDicts l2
  names1 : PlainNames l1
  names2 : PlainNames l2
  data : DataMentioned (l1 ++ l2) sv
  patterns1 : GoodPatterns l1
  patterns2 : GoodPatterns l2
  buffers1 : GoodBuffers DataVal faces l1
  buffers2 : GoodBuffers DataVal faces l2
  mod1 : ModifyingRule reg l1 r1
  mod2 : ModifyingRule reg l2 r2
  known : Recorded l1 r1 sv
  full : Furnished l1 r1 l2 r2 faces
  ask : AskAlike l1 r1 l2
  test : TestAlike reg l1 l2
  fit : FitTogether name2 l1 r1 l2 r2 sv

theorem TwoRules.data2 {faces : Faces} (S : TwoRules P reg l1 r1 l2 r2 name2 sv faces) : DataMentioned l2 sv := by
  intro v hv
  apply S.data
  cases hv with
  | test h1 h2 => exact .test (List.mem_append_right _ h1) h2
  | known h1 h2 => exact .known h1 h2
  | retrieved h1 h2 => exact .retrieved h1 h2

theorem TwoRules.sound {faces : Faces} (S : TwoRules P reg l1 r1 l2 r2 name2 sv faces)
    (C : Compiling P reg l1 r1 l2 r2 name2 sv bufs lhs rhs) : SoundMatch C.st := C.sound S.types S.good2 S.data2

theorem TwoRules.holds1 {faces : Faces} (S : TwoRules P reg l1 r1 l2 r2 name2 sv faces)
    (C : Compiling P reg l1 r1 l2 r2 name2 sv bufs lhs rhs) {σ : String → Option Val} (hσ : RuleHolds DataVal faces lhs σ) :
    RuleHolds DataVal faces l1 (firstAssign DataVal C.st l1 σ) :=
  C.demand S.cf S.types S.dict1 S.dict2 S.good1 S.good2 S.queries1 S.ask S.test S.names1 S.data S.patterns1 S.buffers1 hσ

theorem first_eq (hN : PlainNames l1) {D : Val → Prop} {st : MatchSt} {σ : String → Option Val} {y : String}
    (hy : PosVar l1 y ∨ NegVar l1 y) : firstAssign D st l1 σ y = pull D st.matched st.valued σ y := by
  simp only [firstAssign]
  rw [if_neg]
  intro ht
  rcases hy with hy | hy
  · exact (hN y ht).1 hy
  · exact (hN y ht).2 hy

/-- The tests of the first rule are true. -/
theorem TwoRules.true1 {faces : Faces} (S : TwoRules P reg l1 r1 l2 r2 name2 sv faces)
    (C : Compiling P reg l1 r1 l2 r2 name2 sv bufs lhs rhs) {σ : String → Option Val} (hσ : RuleHolds DataVal faces lhs σ) {b : String}
    {c1 : Chunk} (hc : ((⟨'=', b⟩ : Key), LVal.chunk c1) ∈ l1) {f : BufFace} {d : Chunk} {rest : List Chunk}
    (hf : alook b faces = some f) (hd : f.data = d :: rest) {n : String} {y : VarVal} (hy : (n, SlotOf.vv y) ∈ c1.slots) :
    SlotTrue (pull DataVal C.st.matched C.st.valued σ) (.vv y) (matchingVal d n) := by
  have htrue := (S.holds1 C hσ).conds _ hc
  cases htrue with
  | test hface hdata hcond _ =>
    rw [hf] at hface
    cases hface
    rw [hd] at hdata
    cases hdata
    rw [condHolds_iff] at hcond
    refine slotTrue_congr (hcond n _ _ hy ((slotHas_iff (S.full.data b f d rest hf hd).named _ _).2 rfl)) ?_
    intro x z hx hz
    cases hx
    refine (first_eq S.names1 ?_).symm
    rcases hz with hz | hz
    · exact Or.inl ⟨b, c1, n, y, hc, hy, hz⟩
    · exact Or.inr ⟨b, c1, n, y, hc, hy, hz⟩

/-- What an action of the first rule gives. -/
theorem TwoRules.resolve {faces : Faces} (S : TwoRules P reg l1 r1 l2 r2 name2 sv faces)
    (C : Compiling P reg l1 r1 l2 r2 name2 sv bufs lhs rhs) {σ : String → Option Val} (hσ : RuleHolds DataVal faces lhs σ) {x : VarVal}
    (hx : PlainAction x) (hb : ∀ y, x.vars = some y → PosVar l1 y) :
    ∃ v, DataVal v ∧ GivesVal (pull DataVal C.st.matched C.st.valued σ) x v := by
  rcases hx.one with ⟨h1, h2⟩ | ⟨h1, y, hy, h2⟩
  · have hne : x.values ≠ .none := by intro e; rw [e] at h2; exact h2 trivial
    exact ⟨x.values, ⟨hx.data, hne⟩, hx.plain, fun _ => data_refl ⟨hx.data, hne⟩, fun y hy => by rw [h1] at hy; cases hy⟩
  · obtain ⟨b, c1, n, x1, hc, hn, hv⟩ := hb y h2
    have htrue := (S.holds1 C hσ).conds _ hc
    cases htrue with
    | test hface hdata _ _ =>
      obtain ⟨v, hv', _⟩ := (S.true1 C hσ hc hface hdata hn).1 y hv hy
      have hD := pull_data (m := C.st.matched) (val := C.st.valued) hσ.data y v hv'
      refine ⟨v, hD, hx.plain, fun e => absurd h1 e, fun y' hy' _ => ?_⟩
      rw [h2] at hy'
      cases hy'
      exact ⟨v, hv', data_refl hD⟩

theorem dataAt {c d d'' : Chunk} (hd : DataChunk d'') (hn : ∀ n, n ∈ d''.slots.map Prod.fst ↔ n ∈ d.slots.map Prod.fst)
    (hc : Covers d c) {n : String} {s : Slot} {w : Val} (hs : (n, s) ∈ c.slots) (hw : SlotHas d'' n w) : DataVal w := by
  rw [slotHas_iff hd.named] at hw
  subst hw
  obtain ⟨s', hs'⟩ := hc n s hs
  exact matchingVal_dataVal hd ((hn n).2 (List.mem_map.2 ⟨_, hs', rfl⟩))

/-- A buffer that only the first rule modifies. -/
theorem TwoRules.only1 {faces : Faces} (S : TwoRules P reg l1 r1 l2 r2 name2 sv faces)
    (C : Compiling P reg l1 r1 l2 r2 name2 sv bufs lhs rhs) {σ : String → Option Val} {b : String} {c : Chunk}
    (hm : ((⟨'=', b⟩ : Key), RVal.chunk c) ∈ r1) (hno : ∀ c2, ((⟨'=', b⟩ : Key), RVal.chunk c2) ∉ r2) :
    ∃ c', ((⟨'=', b⟩ : Key), RVal.chunk c') ∈ rhs ∧ ∀ f d rest d'', alook b faces = some f → f.data = d :: rest →
      Changed σ c' d d'' → Changed (pull DataVal C.st.matched C.st.valued σ) c d d'' := by
  have snd := S.sound C
  obtain ⟨c', hc', ht, hsl, hex⟩ := C.act1 S.types S.good1 S.good2 S.dict1 (fun b c n => S.mod1.full b c n) S.mod1.only S.mod2.only
    (C.noRetrieval S.known) hm hno
  refine ⟨c', hc', fun f d rest d'' hf hd hch => ⟨hch.typ.trans ht, hch.data, hch.names, ?_, ?_⟩⟩
  · intro n x w hx hw
    obtain ⟨z, hz⟩ := hex n _ hx.1
    have hpa := S.mod1.acts b c n x hm hx.1
    have hzm : (n, SlotOf.vv z) ∈ c'.slots := (hsl n _).2 ⟨_, z, hx.1, hz, rfl⟩
    exact gives_subst S.cf snd hpa hz (hch.given n z w ⟨hzm, (subst_says snd hz hpa.good.2 hpa.says).speaks⟩ hw)
      (dataAt hch.data hch.names (S.full.acts b c f d rest (List.mem_append_left _ hm) hf hd) hx.1 hw)
  · intro n w w' hnot
    refine hch.kept n w w' (fun z hz => ?_)
    obtain ⟨s, z', hs, hsub, e⟩ := (hsl n _).1 hz.1
    cases e
    cases s with
    | empty => exact silent_speaks (subst_silent rfl hsub ▸ hz.2)
    | vv x => exact hnot x ⟨hs, (S.mod1.acts b c n x hm hs).says.speaks⟩

/-- A buffer that only the second rule modifies. -/
theorem TwoRules.only2 {faces : Faces} (S : TwoRules P reg l1 r1 l2 r2 name2 sv faces)
    (C : Compiling P reg l1 r1 l2 r2 name2 sv bufs lhs rhs) {σ : String → Option Val} {b : String} {c2 : Chunk}
    (hm : ((⟨'=', b⟩ : Key), RVal.chunk c2) ∈ r2) (hno : ∀ c, ((⟨'=', b⟩ : Key), RVal.chunk c) ∉ r1) :
    ∃ c', ((⟨'=', b⟩ : Key), RVal.chunk c') ∈ rhs ∧ ∀ f d rest d'', alook b faces = some f → f.data = d :: rest →
      Changed σ c' d d'' → Changed (fun n => pull DataVal C.st.matched C.st.valued σ (ruleVar name2 n)) c2 d d'' := by
  have snd := S.sound C
  obtain ⟨c', hc', ht, hsl, hex⟩ := C.act2 S.types S.good2 (fun b c n => S.mod2.full b c n) hm
  have hsv := C.hsv
  rw [C.sameSv S.good2 S.dict2 S.mod2.codes S.known] at hsv
  have hkn := knownSlot_none hsv (S.known.rest b hno)
  simp only [hkn] at hsl
  refine ⟨c', hc', fun f d rest d'' hf hd hch => ⟨hch.typ.trans ht, hch.data, hch.names, ?_, ?_⟩⟩
  · intro n x w hx hw
    obtain ⟨y, z, hy, hz⟩ := hex n _ hx.1
    have hpa := S.mod2.acts b c2 n x hm hx.1
    have hzm : (n, SlotOf.vv z) ∈ c'.slots := (hsl n _).2 ⟨_, y, z, hx.1, hy, hz, rfl⟩
    have hye : y.values ≠ .empty := by rw [renameSlot_values hy]; exact hpa.good.2
    exact gives_rename S.cf snd hpa hy hz (hch.given n z w ⟨hzm, (subst_says snd hz hye (rename_says hy hpa.says)).speaks⟩ hw)
      (dataAt hch.data hch.names (S.full.acts b c2 f d rest (List.mem_append_right _ hm) hf hd) hx.1 hw)
  · intro n w w' hnot
    refine hch.kept n w w' (fun z hz => ?_)
    obtain ⟨s, y, z', hs, hy, hsub, e⟩ := (hsl n _).1 hz.1
    cases e
    cases s with
    | empty =>
      have := rename_empty hy
      subst this
      exact silent_speaks (subst_silent rfl hsub ▸ hz.2)
    | vv x => exact hnot x ⟨hs, (S.mod2.acts b c2 n x hm hs).says.speaks⟩

/-- What a slot that both rules may set is between the two rules. -/
theorem TwoRules.between {faces : Faces} (S : TwoRules P reg l1 r1 l2 r2 name2 sv faces)
    (C : Compiling P reg l1 r1 l2 r2 name2 sv bufs lhs rhs) {σ : String → Option Val} (hσ : RuleHolds DataVal faces lhs σ) {b : String}
    {c c2 c' : Chunk} (hm : ((⟨'=', b⟩ : Key), RVal.chunk c) ∈ r1) (hm2 : ((⟨'=', b⟩ : Key), RVal.chunk c2) ∈ r2)
    (hsl : ∀ n s', (n, s') ∈ c'.slots ↔
      ∃ s x z, (n, s) ∈ c2.slots ∧ renameSlot P.toPyEnv name2 C.sc.used s = .ok x ∧
        substSlot P C.st.matched C.st.valued (.vv x) = .ok z ∧
        s' = .vv (match knownSlot C.sv'' b n with | some t => mergeParts (.vv z) t | Option.none => z))
    (hex : ∀ n s, (n, s) ∈ c2.slots → ∃ x z, renameSlot P.toPyEnv name2 C.sc.used s = .ok x ∧
        substSlot P C.st.matched C.st.valued (.vv x) = .ok z) {f : BufFace} {d d'' : Chunk}
    {rest : List Chunk} (hf : alook b faces = some f) (hd : f.data = d :: rest) (hch : Changed σ c' d d'') {n : String}
    (hn : n ∈ d.slots.map Prod.fst) :
    ∃ v, DataVal v ∧ (∀ x, MentionsSlot c n x → GivesVal (pull DataVal C.st.matched C.st.valued σ) x v) ∧
      ((∀ x, ¬ MentionsSlot c n x) → SameVal (matchingVal d n) v) ∧
      ((∀ x, ¬ MentionsSlot c2 n x) → SameVal v (matchingVal d'' n)) := by
  have snd := S.sound C
  have hdd := S.full.data b f d rest hf hd
  have hw := matchingVal_dataVal hdd hn
  have hw'' := matchingVal_dataVal hch.data ((hch.names n).2 hn)
  have has'' := (slotHas_iff hch.data.named n _).2 (rfl : matchingVal d'' n = _)
  have has := (slotHas_iff hdd.named n _).2 (rfl : matchingVal d n = _)
  have hsv := C.hsv
  rw [C.sameSv S.good2 S.dict2 S.mod2.codes S.known] at hsv
  obtain ⟨dk, hdk, hK⟩ := S.known.acted b c hm
  obtain ⟨c0, e, hk1⟩ := S.good1.rhs _ _ hm (by simp)
  cases e
  -- an action of the second rule that says nothing about the slot
  have quiet : (∀ x, ¬ MentionsSlot c2 n x) → ∀ s, (n, s) ∈ c2.slots → s = .empty := by
    intro hnot s hs
    cases s with
    | empty => rfl
    | vv x => exact absurd ⟨hs, (S.mod2.acts b c2 n x hm2 hs).says.speaks⟩ (hnot x)
  by_cases hmen : ∃ x, MentionsSlot c n x
  · obtain ⟨x, hx⟩ := hmen
    have hpa := S.mod1.acts b c n x hm hx.1
    have uniq : ∀ x', MentionsSlot c n x' → x' = x := by
      intro x' hx'
      have h1 := alook_of_mem hk1.1 hx'.1
      rw [alook_of_mem hk1.1 hx.1] at h1
      cases h1; rfl
    by_cases hmen2 : ∃ x2, MentionsSlot c2 n x2
    · obtain ⟨v, hv, hg⟩ := S.resolve C hσ hpa (fun y hy => S.mod1.bound b c n x y hm hx.1 hy)
      exact ⟨v, hv, fun x' hx' => by rw [uniq x' hx']; exact hg, fun h => absurd hx (h x),
        fun h => absurd hmen2 (fun ⟨x2, h2⟩ => h x2 h2)⟩
    · have hnot : ∀ x2, ¬ MentionsSlot c2 n x2 := fun x2 h2 => hmen2 ⟨x2, h2⟩
      obtain ⟨⟨n', s⟩, hs, he⟩ := List.mem_map.1 (S.fit.acts b c c2 hm hm2 n (List.mem_map.2 ⟨_, hx.1, rfl⟩))
      simp only at he
      subst he
      have := quiet hnot s hs
      subst this
      obtain ⟨y, z, hy, hz⟩ := hex _ _ hs
      have := rename_empty hy
      subst this
      have := subst_silent rfl hz
      subst this
      obtain ⟨u, hu, hkn⟩ := (knownSlot_dict hsv hdk n').2 _ (hK.2.1 n' x hx.1)
      have hin : (n', SlotOf.vv u) ∈ c'.slots := by
        refine (hsl n' _).2 ⟨_, _, _, hs, hy, hz, ?_⟩
        rw [hkn]
        simp only [silent_merge]
        rfl
      have hg := hch.given n' u _ ⟨hin, (subst_says snd hu hpa.good.2 hpa.says).speaks⟩ has''
      exact ⟨_, hw'', fun x' hx' => by rw [uniq x' hx']; exact gives_subst S.cf snd hpa hu hg hw'', fun h => absurd hx (h x),
        fun _ => data_refl hw''⟩
  · have hnot1 : ∀ x, ¬ MentionsSlot c n x := fun x h => hmen ⟨x, h⟩
    refine ⟨_, hw, fun x hx => absurd hx (hnot1 x), fun _ => data_refl hw, fun hnot => ?_⟩
    have kept : (∀ z, ¬ MentionsSlot c' n z) → SameVal (matchingVal d n) (matchingVal d'' n) :=
      fun h => hch.kept n _ _ h has has''
    by_cases hmen' : ∃ z, MentionsSlot c' n z
    · obtain ⟨z, hz⟩ := hmen'
      obtain ⟨s, y, z', hs, hy, hz', e⟩ := (hsl n _).1 hz.1
      have := quiet hnot s hs
      subst this
      have := rename_empty hy
      subst this
      have := subst_silent rfl hz'
      subst this
      rcases hkd : alook n dk with _ | t
      · rw [(knownSlot_dict hsv hdk n).1 hkd] at e
        cases e
        exact absurd hz.2 silent_speaks
      · obtain ⟨u, hu, hkn⟩ := (knownSlot_dict hsv hdk n).2 _ hkd
        rw [hkn] at e
        simp only [silent_merge] at e
        cases e
        have hc0 : ∀ x, (n, SlotOf.vv x) ∉ c.slots := fun x hx => hnot1 x ⟨hx, (S.mod1.acts b c n x hm hx).says.speaks⟩
        cases t with
        | empty => exact absurd hz.2 (subst_silent rfl hu ▸ silent_speaks)
        | vv y =>
          by_cases ht : ∃ c1, ((⟨'=', b⟩ : Key), LVal.chunk c1) ∈ l1
          · obtain ⟨c1, hc1⟩ := ht
            have hy1 := alook_mem (((hK.2.2 n hc0).1 c1 hc1).symm.trans hkd)
            have t1 := S.true1 C hσ hc1 hf hd hy1
            have hdat := S.data _ (.test (List.mem_append_left _ hc1) hy1)
            have hneg := ((S.patterns1 b c1 hc1).2 n y hy1).2
            have hg := hch.given n u _ hz has''
            have t2 := slotTrue_subst S.cf snd.vars snd.vals (s := .vv y) (by
              intro y' e; cases e; exact ⟨hdat.1, hdat.2, hneg⟩) hu (gives_true hg) hw''
            have hpl := subst_plain S.cf snd hneg hu hg.plain
            have hsy := S.mod1.tests b c1 n y hc1 hy1
            rcases hsy.some with h | h | h | h
            · rcases hsy.value with h' | h'
              · exact absurd h' h
              · have hh := hard_of_required h'
                rcases t1.2.2.1 with a | a
                · exact absurd a h'
                · rcases t2.2.2.1 with a' | a'
                  · exact absurd a' h'
                  · exact hard_same hh a a'
            · rcases hv : y.vars with _ | q
              · exact absurd hv h
              · have hq : q ≠ "" := fun e => hsy.var (by rw [hv, e])
                obtain ⟨v1, a1, a2⟩ := t1.1 q hv hq
                obtain ⟨v2, b1, b2⟩ := t2.1 q hv hq
                rw [a1] at b1
                cases b1
                have hD := pull_data (m := C.st.matched) (val := C.st.valued) hσ.data q v1 a1
                exact data_trans hw hD hw'' (sameVal_symm a2) b2
            · exact absurd hpl.1 h
            · exact absurd hpl.2 h
          · rw [(hK.2.2 n hc0).2 (fun c1 h => ht ⟨c1, h⟩)] at hkd
            cases hkd
    · exact kept (fun z hz => hmen' ⟨z, hz⟩)

theorem alook_mapKey {α β : Type} (F : String → α → β) (n : String) (l : List (String × α)) :
    alook n (l.map (fun p => (p.1, F p.1 p.2))) = (alook n l).map (F n) := by
  induction l with
  | nil => rfl
  | cons p r ih =>
    obtain ⟨m, a⟩ := p
    simp only [List.map_cons, alook, ih]
    split
    · rename_i h; rw [h]; rfl
    · rfl

/-- A buffer that both rules modify: there is a chunk that the first rule makes and that the second one turns into the last one. -/
theorem TwoRules.both {faces : Faces} (S : TwoRules P reg l1 r1 l2 r2 name2 sv faces)
    (C : Compiling P reg l1 r1 l2 r2 name2 sv bufs lhs rhs) {σ : String → Option Val} (hσ : RuleHolds DataVal faces lhs σ) {b : String}
    {c c2 : Chunk} (hm : ((⟨'=', b⟩ : Key), RVal.chunk c) ∈ r1) (hm2 : ((⟨'=', b⟩ : Key), RVal.chunk c2) ∈ r2) :
    ∃ c', ((⟨'=', b⟩ : Key), RVal.chunk c') ∈ rhs ∧ ∀ f d rest d'', alook b faces = some f → f.data = d :: rest →
      Changed σ c' d d'' → ∃ d1, Changed (pull DataVal C.st.matched C.st.valued σ) c d d1 ∧
        Changed (fun n => pull DataVal C.st.matched C.st.valued σ (ruleVar name2 n)) c2 d1 d'' := by
  have snd := S.sound C
  obtain ⟨c', hc', ht, hsl, hex⟩ := C.act2 S.types S.good2 (fun b c n => S.mod2.full b c n) hm2
  refine ⟨c', hc', fun f d rest d'' hf hd hch => ?_⟩
  have hdd := S.full.data b f d rest hf hd
  have mid : ∀ n, ∃ v, n ∈ d.slots.map Prod.fst → DataVal v ∧
      (∀ x, MentionsSlot c n x → GivesVal (pull DataVal C.st.matched C.st.valued σ) x v) ∧
      ((∀ x, ¬ MentionsSlot c n x) → SameVal (matchingVal d n) v) ∧
      ((∀ x, ¬ MentionsSlot c2 n x) → SameVal v (matchingVal d'' n)) := by
    intro n
    by_cases hn : n ∈ d.slots.map Prod.fst
    · obtain ⟨v, hv⟩ := S.between C hσ hm hm2 hsl hex hf hd hch hn
      exact ⟨v, fun _ => hv⟩
    · exact ⟨.none, fun h => absurd h hn⟩
  choose g hg using mid
  let d1 : Chunk := ⟨c.typ, d.slots.map (fun p => (p.1, .vv ⟨g p.1, Option.none, [], []⟩))⟩
  have hnames : d1.slots.map Prod.fst = d.slots.map Prod.fst := by simp only [d1, List.map_map]; rfl
  have hval : ∀ n ∈ d.slots.map Prod.fst, matchingVal d1 n = g n := by
    intro n hn
    obtain ⟨s, hs⟩ := mem_keys_iff.1 hn
    have : alook n d1.slots = some (.vv ⟨g n, Option.none, [], []⟩) := by
      have := alook_mapKey (fun n (_ : Slot) => (SlotOf.vv ⟨g n, Option.none, [], []⟩ : Slot)) n d.slots
      rw [hs] at this
      exact this
    simp only [matchingVal, this]
  have hD1 : DataChunk d1 := by
    refine ⟨?_, by simp only [Named, hnames]; exact hdd.named, ?_⟩
    · show PlainSlots d1.slots
      rw [plainSlots_iff]
      intro n x hx
      obtain ⟨⟨m, s⟩, hs, he⟩ := List.mem_map.1 hx
      simp only [Prod.mk.injEq, SlotOf.vv.injEq] at he
      obtain ⟨rfl, rfl⟩ := he
      exact ⟨(hg _ (List.mem_map.2 ⟨_, hs, rfl⟩)).1.1, rfl, rfl, rfl⟩
    · intro n x hx
      obtain ⟨⟨m, s⟩, hs, he⟩ := List.mem_map.1 hx
      simp only [Prod.mk.injEq, SlotOf.vv.injEq] at he
      obtain ⟨rfl, rfl⟩ := he
      exact (hg _ (List.mem_map.2 ⟨_, hs, rfl⟩)).1.2
  have inside : ∀ (e : Chunk), ((⟨'=', b⟩ : Key), RVal.chunk e) ∈ r1 ++ r2 → ∀ n s, (n, s) ∈ e.slots → n ∈ d.slots.map Prod.fst := by
    intro e he n s hs
    obtain ⟨s', hs'⟩ := S.full.acts b e f d rest he hf hd n s hs
    exact List.mem_map.2 ⟨_, hs', rfl⟩
  refine ⟨d1, ⟨rfl, hD1, fun n => by rw [hnames], ?_, ?_⟩, ⟨hch.typ.trans ht, hch.data, fun n => by rw [hnames]; exact hch.names n, ?_, ?_⟩⟩
  · intro n x w hx hw
    have hn := inside c (List.mem_append_left _ hm) n _ hx.1
    rw [slotHas_iff hD1.named, hval n hn] at hw
    rw [hw]
    exact (hg n hn).2.1 x hx
  · intro n w w' hnot hw hw'
    rw [slotHas_iff hdd.named] at hw
    rw [slotHas_iff hD1.named] at hw'
    by_cases hn : n ∈ d.slots.map Prod.fst
    · rw [hw, hw', hval n hn]
      exact (hg n hn).2.2.1 hnot
    · have h1 : matchingVal d n = .none := by
        rcases ha : alook n d.slots with _ | s
        · simp only [matchingVal, ha]
        · exact absurd (mem_keys_iff.2 ⟨s, ha⟩) hn
      have h2 : matchingVal d1 n = .none := by
        rcases ha : alook n d1.slots with _ | s
        · simp only [matchingVal, ha]
        · exact absurd (by rw [← hnames]; exact mem_keys_iff.2 ⟨s, ha⟩) hn
      rw [hw, hw', h1, h2]
      trivial
  · intro n x w hx hw
    obtain ⟨y, z, hy, hz⟩ := hex n _ hx.1
    have hpa := S.mod2.acts b c2 n x hm2 hx.1
    have hye : y.values ≠ .empty := by rw [renameSlot_values hy]; exact hpa.good.2
    have hzs := subst_says snd hz hye (rename_says hy hpa.says)
    have hzm : (n, SlotOf.vv z) ∈ c'.slots := by
      refine (hsl n _).2 ⟨_, y, z, hx.1, hy, hz, ?_⟩
      rcases knownSlot C.sv'' b n with _ | t
      · rfl
      · simp only [hzs.merge]
    exact gives_rename S.cf snd hpa hy hz (hch.given n z w ⟨hzm, hzs.speaks⟩ hw)
      (dataAt hch.data hch.names (S.full.acts b c2 f d rest (List.mem_append_right _ hm2) hf hd) hx.1 hw)
  · intro n w w' hnot hw hw'
    rw [slotHas_iff hD1.named] at hw
    by_cases hn : n ∈ d.slots.map Prod.fst
    · rw [slotHas_iff hch.data.named] at hw'
      rw [hw, hw', hval n hn]
      exact (hg n hn).2.2.2 hnot
    · have h2 : matchingVal d1 n = .none := by
        rcases ha : alook n d1.slots with _ | s
        · simp only [matchingVal, ha]
        · exact absurd (by rw [← hnames]; exact mem_keys_iff.2 ⟨s, ha⟩) hn
      have h3 : matchingVal d'' n = .none := by
        rcases ha : alook n d''.slots with _ | s
        · simp only [matchingVal, ha]
        · exact absurd ((hch.names n).1 (mem_keys_iff.2 ⟨s, ha⟩)) hn
      rw [slotHas_iff hch.data.named] at hw'
      rw [hw, hw', h2, h3]
      trivial

/-- The buffers between the two rules. -/
theorem TwoRules.middle {faces faces'' : Faces} (S : TwoRules P reg l1 r1 l2 r2 name2 sv faces)
    (C : Compiling P reg l1 r1 l2 r2 name2 sv bufs lhs rhs) {σ : String → Option Val} (hσ : RuleHolds DataVal faces lhs σ)
    (hM : Modified σ rhs faces faces'') :
    ∃ faces', Modified (pull DataVal C.st.matched C.st.valued σ) r1 faces faces' ∧
      Modified (fun n => pull DataVal C.st.matched C.st.valued σ (ruleVar name2 n)) r2 faces' faces'' := by
  have uniq : ∀ b c c', ((⟨'=', b⟩ : Key), RVal.chunk c) ∈ r1 → ((⟨'=', b⟩ : Key), RVal.chunk c') ∈ r1 → c' = c := by
    intro b c c' h h'
    have h1 := klook_of_mem (S.dict1.rhs r1 rfl).1 h
    rw [klook_of_mem (S.dict1.rhs r1 rfl).1 h'] at h1
    cases h1; rfl
  have uniq2 : ∀ b c c', ((⟨'=', b⟩ : Key), RVal.chunk c) ∈ r2 → ((⟨'=', b⟩ : Key), RVal.chunk c') ∈ r2 → c' = c := by
    intro b c c' h h'
    have h1 := klook_of_mem (S.dict2.rhs r2 rfl).1 h
    rw [klook_of_mem (S.dict2.rhs r2 rfl).1 h'] at h1
    cases h1; rfl
  have each : ∀ b, ∃ d1, ∀ c, ((⟨'=', b⟩ : Key), RVal.chunk c) ∈ r1 → ∃ f d rest d'', alook b faces = some f ∧ f.data = d :: rest ∧
      alook b faces'' = some { f with data := d'' :: rest } ∧ Changed (pull DataVal C.st.matched C.st.valued σ) c d d1 ∧
      ((∀ c2, ((⟨'=', b⟩ : Key), RVal.chunk c2) ∉ r2) → d'' = d1) ∧ ∀ c2, ((⟨'=', b⟩ : Key), RVal.chunk c2) ∈ r2 →
        Changed (fun n => pull DataVal C.st.matched C.st.valued σ (ruleVar name2 n)) c2 d1 d'' := by
    intro b
    by_cases hb : ∃ c, ((⟨'=', b⟩ : Key), RVal.chunk c) ∈ r1
    · obtain ⟨c, hc⟩ := hb
      by_cases hb2 : ∃ c2, ((⟨'=', b⟩ : Key), RVal.chunk c2) ∈ r2
      · obtain ⟨c2, hc2⟩ := hb2
        obtain ⟨c', hc', hall⟩ := S.both C hσ hc hc2
        obtain ⟨f, d, rest, d'', h1, h2, h3, h4⟩ := hM.acted b c' hc'
        obtain ⟨d1, h5, h6⟩ := hall f d rest d'' h1 h2 h4
        refine ⟨d1, fun e he => ⟨f, d, rest, d'', h1, h2, h3, uniq b c e hc he ▸ h5, fun h => absurd hc2 (h c2), fun e2 he2 => ?_⟩⟩
        rw [uniq2 b c2 e2 hc2 he2]; exact h6
      · have hno : ∀ c2, ((⟨'=', b⟩ : Key), RVal.chunk c2) ∉ r2 := fun c2 h => hb2 ⟨c2, h⟩
        obtain ⟨c', hc', hall⟩ := S.only1 C (σ := σ) hc hno
        obtain ⟨f, d, rest, d'', h1, h2, h3, h4⟩ := hM.acted b c' hc'
        exact ⟨d'', fun e he => ⟨f, d, rest, d'', h1, h2, h3, uniq b c e hc he ▸ hall f d rest d'' h1 h2 h4, fun _ => rfl,
          fun c2 h => absurd h (hno c2)⟩⟩
    · exact ⟨⟨"", []⟩, fun c hc => absurd ⟨c, hc⟩ hb⟩
  choose N hN using each
  classical
  let F : String → BufFace → BufFace := fun b f =>
    if ∃ c, ((⟨'=', b⟩ : Key), RVal.chunk c) ∈ r1 then { f with data := N b :: f.data.tail } else f
  have hlook : ∀ b, alook b (faces.map (fun p => (p.1, F p.1 p.2))) = (alook b faces).map (F b) := fun b => alook_mapKey F b faces
  refine ⟨faces.map (fun p => (p.1, F p.1 p.2)), ⟨?_, ?_⟩, ⟨?_, ?_⟩⟩
  · intro b c hc
    obtain ⟨f, d, rest, d'', h1, h2, h3, h4, _⟩ := hN b c hc
    refine ⟨f, d, rest, N b, h1, h2, ?_, h4⟩
    rw [hlook, h1]
    simp only [Option.map_some, F, if_pos (⟨c, hc⟩ : ∃ c, ((⟨'=', b⟩ : Key), RVal.chunk c) ∈ r1), h2, List.tail_cons]
  · intro b hb
    rw [hlook]
    rcases alook b faces with _ | f
    · rfl
    · simp only [Option.map_some, F]
      rw [if_neg (fun ⟨c, hc⟩ => hb c hc)]
  · intro b c2 hc2
    by_cases hb : ∃ c, ((⟨'=', b⟩ : Key), RVal.chunk c) ∈ r1
    · obtain ⟨c, hc⟩ := id hb
      obtain ⟨f, d, rest, d'', h1, h2, h3, _, _, h6⟩ := hN b c hc
      refine ⟨{ f with data := N b :: rest }, N b, rest, d'', ?_, rfl, h3, h6 c2 hc2⟩
      rw [hlook, h1]
      simp only [Option.map_some, F, if_pos hb, h2, List.tail_cons]
    · obtain ⟨c', hc', hall⟩ := S.only2 C (σ := σ) hc2 (fun c h => hb ⟨c, h⟩)
      obtain ⟨f, d, rest, d'', h1, h2, h3, h4⟩ := hM.acted b c' hc'
      refine ⟨f, d, rest, d'', ?_, h2, h3, hall f d rest d'' h1 h2 h4⟩
      rw [hlook, h1]
      simp only [Option.map_some, F, if_neg hb]
  · intro b hb2
    by_cases hb : ∃ c, ((⟨'=', b⟩ : Key), RVal.chunk c) ∈ r1
    · obtain ⟨c, hc⟩ := id hb
      obtain ⟨f, d, rest, d'', h1, h2, h3, _, h5, _⟩ := hN b c hc
      rw [hlook, h1, h3, h5 hb2]
      simp only [Option.map_some, F, if_pos hb, h2, List.tail_cons]
    · rw [hM.rest b (fun c h => ?_), hlook]
      · rcases alook b faces with _ | f
        · rfl
        · simp only [Option.map_some, F]
          rw [if_neg hb]
      · rcases C.acts_only S.good1 S.good2 h with h | ⟨c, h⟩
        · exact hb h
        · exact hb2 c h

open Classical in
/-- The assignment that makes the second rule's conditions true after the first rule. -/
noncomputable def afterAssign (name2 : String) (st : MatchSt) (l2 : List (Key × LVal)) (faces' : Faces) (σ : String → Option Val) :
    String → Option Val := fun n =>
  if Tested l2 n then (alook n faces').bind (fun f => f.data.head?.map Chunk.val)
  else pull DataVal st.matched st.valued σ (ruleVar name2 n)

theorem after_eq (hN : PlainNames l2) {st : MatchSt} {σ : String → Option Val} {faces' : Faces} {y : String}
    (hy : PosVar l2 y ∨ NegVar l2 y) : afterAssign name2 st l2 faces' σ y = pull DataVal st.matched st.valued σ (ruleVar name2 y) := by
  simp only [afterAssign]
  rw [if_neg]
  intro ht
  rcases hy with hy | hy
  · exact (hN y ht).1 hy
  · exact (hN y ht).2 hy

theorem second_eq (hN : PlainNames l2) {D : Val → Prop} {st : MatchSt} {σ : String → Option Val} {y : String}
    (hy : PosVar l2 y ∨ NegVar l2 y) : secondAssign D name2 st l2 σ y = pull D st.matched st.valued σ (ruleVar name2 y) := by
  simp only [secondAssign]
  rw [if_neg]
  intro ht
  rcases hy with hy | hy
  · exact (hN y ht).1 hy
  · exact (hN y ht).2 hy

/-- After the first rule, the conditions of the second one hold. -/
theorem TwoRules.holds2 {faces faces' : Faces} (S : TwoRules P reg l1 r1 l2 r2 name2 sv faces)
    (C : Compiling P reg l1 r1 l2 r2 name2 sv bufs lhs rhs) {σ : String → Option Val} (hσ : RuleHolds DataVal faces lhs σ)
    (hM : Modified (pull DataVal C.st.matched C.st.valued σ) r1 faces faces') :
    RuleHolds DataVal faces' l2 (afterAssign name2 C.st l2 faces' σ) := by
  have snd := S.sound C
  have hπ := pull_data (m := C.st.matched) (val := C.st.valued) hσ.data
  have hdata : ∀ b f d rest, alook b faces' = some f → f.data = d :: rest → DataChunk d := by
    intro b f d rest hf hd
    by_cases hb : ∃ c, ((⟨'=', b⟩ : Key), RVal.chunk c) ∈ r1
    · obtain ⟨c, hc⟩ := hb
      obtain ⟨f0, d0, rest0, d1, _, _, h3, h4⟩ := hM.acted b c hc
      rw [hf] at h3
      cases h3
      cases hd
      exact h4.data
    · rw [hM.rest b (fun c hc => hb ⟨c, hc⟩)] at hf
      exact S.full.data b f d rest hf hd
  have self : ∀ b c f d rest, ((⟨'=', b⟩ : Key), LVal.chunk c) ∈ l2 → alook b faces' = some f → f.data = d :: rest →
      ∃ v, afterAssign name2 C.st l2 faces' σ b = some v ∧ SameVal v d.val := by
    intro b c f d rest hc hf hd
    refine ⟨d.val, ?_, data_refl ⟨(hdata b f d rest hf hd).plain, by simp [Chunk.val]⟩⟩
    simp only [afterAssign]
    have ht : Tested l2 b := ⟨c, hc⟩
    rw [if_pos ht, hf]
    simp [hd]
  -- conditions that the first rule has nothing to do with
  have alone : ∀ k v, (∀ k' v', (k', v') ∈ [(k, v)] → (k'.code = '?' ∧ (k', v') ∈ l2 ∧ ¬ ActsUpon r1 k'.name) ∨
      (k'.code = '=' ∧ (∀ d c, (k'.name, SlotInfo.retr d c) ∉ sv) ∧ ∃ c c2, v' = .chunk c ∧ (k', LVal.chunk c2) ∈ l2 ∧
      (∀ n s, (n, s) ∈ c.slots → (n, s) ∈ c2.slots) ∧
      ∀ c1 n x y, (k', LVal.chunk c1) ∈ l1 → (n, SlotOf.vv x) ∈ c.slots → (n, SlotOf.vv y) ∉ c1.slots)) →
      CondTrue faces (secondAssign DataVal name2 C.st l2 σ) (k, v) := by
    intro k v h
    exact (C.demand2 S.cf S.types S.dict1 S.dict2 S.good1 S.good2 S.queries2 S.names2 S.data2 S.patterns2 S.buffers2 (l := [(k, v)]) h
      hσ).conds _ List.mem_cons_self
  refine ⟨fun y v hv => ?_, ?_⟩
  · simp only [afterAssign] at hv
    split at hv
    · rcases hf : alook y faces' with _ | f
      · rw [hf] at hv; cases hv
      · rw [hf] at hv
        simp only [Option.bind_some] at hv
        rcases hd : f.data with _ | ⟨d, rest⟩
        · rw [hd] at hv; cases hv
        · rw [hd] at hv
          cases hv
          exact ⟨(hdata y f d rest hf hd).plain, by simp [Chunk.val]⟩
    · exact hπ _ _ hv
  rintro ⟨⟨code, b⟩, v⟩ hm
  rcases S.mod2.codes _ _ hm with hc | hc <;> simp only at hc <;> subst hc
  · -- a test
    obtain ⟨c2, rfl, hk2⟩ := S.good2.lhs _ _ hm (by simp)
    by_cases hb : ∃ c, ((⟨'=', b⟩ : Key), RVal.chunk c) ∈ r1
    · obtain ⟨c, hc⟩ := hb
      obtain ⟨f, d, rest, d1, hf, hd, hf', hch⟩ := hM.acted b c hc
      obtain ⟨dk, hdk, hK⟩ := S.known.acted b c hc
      have hdd := S.full.data b f d rest hf hd
      refine .test hf' rfl ?_ (self b c2 _ d1 rest hm hf' rfl)
      rw [condHolds_iff]
      intro n s w hs hw
      cases s with
      | empty => trivial
      | vv x =>
      rw [slotHas_iff hch.data.named] at hw
      subst hw
      have hn : n ∈ d.slots.map Prod.fst := by
        obtain ⟨s', hs'⟩ := S.full.tests b c2 f d rest (List.mem_append_right _ hm) hf hd n _ hs
        exact List.mem_map.2 ⟨_, hs', rfl⟩
      have hw := matchingVal_dataVal hdd hn
      have hw' := matchingVal_dataVal hch.data ((hch.names n).2 hn)
      have kept : (∀ x0, (n, SlotOf.vv x0) ∉ c.slots) → SameVal (matchingVal d n) (matchingVal d1 n) := fun h =>
        hch.kept n _ _ (fun x0 h0 => h x0 h0.1) ((slotHas_iff hdd.named n _).2 rfl) ((slotHas_iff hch.data.named n _).2 rfl)
      have hxd := S.data2 _ (.test hm hs)
      suffices hsuff : SlotTrue (fun v => pull DataVal C.st.matched C.st.valued σ (ruleVar name2 v)) (.vv x) (matchingVal d1 n) by
        refine slotTrue_congr hsuff (fun x' y hx hy => ?_)
        cases hx
        refine after_eq S.names2 ?_
        rcases hy with hy | hy
        · exact Or.inl ⟨b, c2, n, x, hm, hs, hy⟩
        · exact Or.inr ⟨b, c2, n, x, hm, hs, hy⟩
      by_cases hy : ∃ y, alook n dk = some (.vv y)
      · obtain ⟨y, hy⟩ := hy
        have hMeet : Meeting r1 l2 sv b n x y := ⟨c, c2, dk, hc, hm, hs, hdk, hy⟩
        obtain ⟨x', hx', htied, hpy⟩ := C.tied S.types S.good2 S.dict2 S.mod2.codes S.known S.fit hMeet
        obtain ⟨hp1, hp2, hyv⟩ := S.fit.plain b n x y hMeet
        have hyd := S.data2 _ (.known (alook_mem hdk) (alook_mem hy))
        obtain ⟨hys, hyt⟩ : SaysSomething y ∧ SlotTrue (pull DataVal C.st.matched C.st.valued σ) (.vv y) (matchingVal d1 n) := by
          by_cases hx0 : ∃ x0, (n, SlotOf.vv x0) ∈ c.slots
          · obtain ⟨x0, hx0⟩ := hx0
            have := hK.2.1 n x0 hx0
            rw [hy] at this
            cases this
            have hpa := S.mod1.acts b c n y hc hx0
            exact ⟨hpa.something, gives_true (hch.given n y _ ⟨hx0, hpa.says.speaks⟩ ((slotHas_iff hch.data.named n _).2 rfl))⟩
          · have hx0' : ∀ x0, (n, SlotOf.vv x0) ∉ c.slots := fun x0 h => hx0 ⟨x0, h⟩
            by_cases ht : ∃ c1, ((⟨'=', b⟩ : Key), LVal.chunk c1) ∈ l1
            · obtain ⟨c1, hc1⟩ := ht
              have hy1 := alook_mem (((hK.2.2 n hx0').1 c1 hc1).symm.trans hy)
              exact ⟨S.mod1.tests b c1 n y hc1 hy1, slotTrue_same hπ (fun z e => by cases e; exact hyd.1) hw hw' (kept hx0')
                (S.true1 C hσ hc1 hf hd hy1)⟩
            · rw [(hK.2.2 n hx0').2 (fun c1 h => ht ⟨c1, h⟩)] at hy
              cases hy
        exact tie_true S.cf hx' ⟨hp1, hp2⟩ ⟨hxd.1, hxd.2⟩ ⟨hyd.1, hyd.2⟩ hys hyv htied hpy hw' hw'.2 hyt
      · have hx0 : ∀ x0, (n, SlotOf.vv x0) ∉ c.slots := fun x0 h => hy ⟨x0, hK.2.1 n x0 h⟩
        have htrue := alone ⟨'=', b⟩ (.chunk ⟨c2.typ, [(n, .vv x)]⟩) (by
          intro k' v' h
          simp only [List.mem_singleton, Prod.mk.injEq] at h
          obtain ⟨rfl, rfl⟩ := h
          refine Or.inr ⟨rfl, fun d0 c0 => (recorded_noRetr S.known).1 b d0 c0, _, c2, rfl, hm, ?_, ?_⟩
          · intro n' s' h'
            simp only [List.mem_singleton, Prod.mk.injEq] at h'
            rw [h'.1, h'.2]; exact hs
          · intro c1 n' x' y' hc1 h' hy'
            simp only [List.mem_singleton, Prod.mk.injEq] at h'
            rw [h'.1] at hy'
            obtain ⟨c1', e, hk1⟩ := S.good1.lhs _ _ hc1 (by simp)
            cases e
            refine hy ⟨y', ?_⟩
            rw [(hK.2.2 n hx0).1 c1 hc1]
            exact alook_of_mem hk1.1 hy')
        cases htrue with
        | test hface hdat hcond _ =>
          rw [hf] at hface
          cases hface
          rw [hd] at hdat
          cases hdat
          rw [condHolds_iff] at hcond
          refine slotTrue_same (fun y v => hπ _ v) (fun z e => by cases e; exact hxd.1) hw hw' (kept hx0) ?_
          refine slotTrue_congr (hcond n _ _ List.mem_cons_self ((slotHas_iff hdd.named n _).2 rfl)) (fun x' y hx hy => ?_)
          cases hx
          refine (second_eq S.names2 ?_).symm
          rcases hy with hy | hy
          · exact Or.inl ⟨b, c2, n, x, hm, hs, hy⟩
          · exact Or.inr ⟨b, c2, n, x, hm, hs, hy⟩
    · have hno : ∀ c, ((⟨'=', b⟩ : Key), RVal.chunk c) ∉ r1 := fun c h => hb ⟨c, h⟩
      have htrue := alone ⟨'=', b⟩ (.chunk c2) (by
        intro k' v' h
        simp only [List.mem_singleton, Prod.mk.injEq] at h
        obtain ⟨rfl, rfl⟩ := h
        refine Or.inr ⟨rfl, fun d0 c0 => (recorded_noRetr S.known).1 b d0 c0, _, c2, rfl, hm, fun n s h => h, ?_⟩
        intro c1 n' x' y' hc1 h' hy'
        obtain ⟨c, hc⟩ := S.fit.apart b c1 c2 n' x' y' hc1 hm hy' h'
        exact hno c hc)
      cases htrue with
      | test hface hdat hcond _ =>
        have hf' := (hM.rest b hno).trans hface
        refine .test hf' hdat ?_ (self b c2 _ _ _ hm hf' hdat)
        rw [condHolds_iff] at hcond ⊢
        intro n s w hs hw
        refine slotTrue_congr (hcond n s w hs hw) (fun x y hx hy => ?_)
        subst hx
        have : PosVar l2 y ∨ NegVar l2 y := by
          rcases hy with hy | hy
          · exact Or.inl ⟨b, c2, n, x, hm, hs, hy⟩
          · exact Or.inr ⟨b, c2, n, x, hm, hs, hy⟩
        rw [after_eq S.names2 this, second_eq S.names2 this]
  · -- queries
    obtain ⟨q, d0, rfl, hnd⟩ := S.queries2 b v hm
    have htrue := alone ⟨'?', b⟩ (.dict (q :: d0)) (by
      intro k' v' h
      simp only [List.mem_singleton, Prod.mk.injEq] at h
      obtain ⟨rfl, rfl⟩ := h
      refine Or.inl ⟨rfl, hm, ?_⟩
      rintro ⟨k, v, hkv, _, hcode⟩
      rw [S.mod1.only k v hkv] at hcode
      simp at hcode)
    cases htrue with
    | query hall =>
      refine .query (fun a u hu => ?_)
      obtain ⟨f, hf, hq⟩ := hall a u hu
      by_cases hb : ∃ c, ((⟨'=', b⟩ : Key), RVal.chunk c) ∈ r1
      · obtain ⟨c, hc⟩ := hb
        obtain ⟨f0, d, rest, d1, h1, h2, h3, _⟩ := hM.acted b c hc
        rw [hf] at h1
        cases h1
        refine ⟨_, h3, ?_⟩
        simp only [QueryHolds, h2] at hq ⊢
        split at hq
        · rename_i ha
          rw [if_pos ha]
          simpa using hq
        · rename_i ha
          rw [if_neg ha]
          exact hq
      · exact ⟨f, by rw [hM.rest b (fun c h => hb ⟨c, h⟩)]; exact hf, hq⟩

/-- A compiled rule does in one step what its two rules do in two. -/
theorem TwoRules.fires {faces faces'' : Faces} (S : TwoRules P reg l1 r1 l2 r2 name2 sv faces)
    (C : Compiling P reg l1 r1 l2 r2 name2 sv bufs lhs rhs) (h : Fires DataVal lhs rhs faces faces'') :
    ∃ faces', Fires DataVal l1 r1 faces faces' ∧ Fires DataVal l2 r2 faces' faces'' := by
  obtain ⟨σ, hσ, hM⟩ := h
  obtain ⟨faces', h1, h2⟩ := S.middle C hσ hM
  refine ⟨faces', ⟨_, S.holds1 C hσ, ⟨fun b c hc => ?_, h1.rest⟩⟩, ⟨_, S.holds2 C hσ h1, ⟨fun b c hc => ?_, h2.rest⟩⟩⟩
  · obtain ⟨f, d, rest, d', a1, a2, a3, a4⟩ := h1.acted b c hc
    exact ⟨f, d, rest, d', a1, a2, a3, changed_congr a4 (fun n x y hx hy =>
      first_eq S.names1 (Or.inl (S.mod1.bound b c n x y hc hx hy)))⟩
  · obtain ⟨f, d, rest, d', a1, a2, a3, a4⟩ := h2.acted b c hc
    exact ⟨f, d, rest, d', a1, a2, a3, changed_congr a4 (fun n x y hx hy =>
      after_eq S.names2 (Or.inl (S.mod2.bound b c n x y hc hx hy)))⟩

end

end Verif
