import Verif.Spec.Converse
import Verif.Lemmas.Fires
/-!
# A compiled rule can fire where its two rules fire
-/
namespace Verif
open Spec

/-! ## Assignments that respect what was tied -/

/-- Variables that are replaced have the same value as what they are replaced by. -/
structure Respects (τ : String → Option Val) (st : MatchSt) : Prop where
  vars : ∀ v u, alook v st.matched = some u → ∃ a b, τ v = some a ∧ τ u = some b ∧ SameVal a b
  vals : ∀ v t, alook v st.valued = some t → ∃ a, τ v = some a ∧ SameVal a t

/-- The variables in `S` and the value `t` agree on a value. -/
def AgreeOn (τ : String → Option Val) (S : List String) (t : Val) : Prop :=
  ∃ w, DataVal w ∧ (∀ v ∈ S, ∃ a, τ v = some a ∧ SameVal a w) ∧ (t.truthy = true → DataVal t ∧ SameVal t w)

theorem shortest_mem : ∀ (r : List String) (x : String), r.foldl (fun m y => if y.length < m.length then y else m) x ∈ x :: r
  | [], x => by simp
  | y :: r, x => by
    rw [List.foldl_cons]
    rcases List.mem_cons.1 (shortest_mem r (if y.length < x.length then y else x)) with h | h
    · rw [h]
      split <;> simp
    · exact List.mem_cons_of_mem _ (List.mem_cons_of_mem _ h)

theorem tieVars_respects {E : PyEnv} {τ : String → Option Val} {S : List String} {t : Val} {st : MatchSt}
    (hτ : ∀ y v, τ y = some v → DataVal v) (h : Respects τ st) (hS : AgreeOn τ S t) : Respects τ (tieVars E S t st) := by
  obtain ⟨w, hw, hv, ht⟩ := hS
  have hmem : ∀ v, v ∈ E.ord S ↔ v ∈ S := fun v => (E.perm S).mem_iff
  unfold tieVars
  by_cases htt : t.truthy = true
  · rw [if_pos htt]
    refine ⟨h.vars, fun v u hu => ?_⟩
    rw [alook_asetAll] at hu
    split at hu
    · rename_i hin
      cases hu
      obtain ⟨a, ha, hs⟩ := hv v ((hmem v).1 hin)
      obtain ⟨hd, hs'⟩ := ht htt
      exact ⟨a, ha, data_trans (hτ _ _ ha) hw hd hs (sameVal_symm hs')⟩
    · exact h.vals v u hu
  · rw [if_neg htt]
    rcases ho : E.ord S with _ | ⟨x, r⟩
    · exact h
    · simp only
      rw [ho] at hmem
      refine ⟨fun v u hu => ?_, h.vals⟩
      rw [alook_asetAll] at hu
      split at hu
      · rename_i hin
        simp only [Option.some.injEq] at hu
        obtain ⟨a, ha, hs⟩ := hv v ((hmem v).1 hin)
        obtain ⟨b, hb, hs'⟩ := hv u ((hmem u).1 (hu ▸ shortest_mem r x))
        exact ⟨a, b, ha, hb, data_trans (hτ _ _ ha) hw (hτ _ _ hb) hs (sameVal_symm hs')⟩
      · exact h.vars v u hu

theorem matchDict_respects {P : Py} {d3 : Slots} {τ : String → Option Val} (hτ : ∀ y v, τ y = some v → DataVal v) :
    ∀ {l : Slots} {st st' : MatchSt}, matchDict P d3 l st = .ok st' → (∀ n s, (n, s) ∈ l → AgreeOn τ (tieSet d3 n s) (tieVal d3 n s)) →
    Respects τ st → Respects τ st'
  | [], st, st', h, _, hR => by simp only [matchDict, Except.ok.injEq] at h; subst h; exact hR
  | (n, s) :: r, st, st', h, hd, hR => by
    simp only [matchDict] at h
    split at h
    · cases h
    · exact matchDict_respects hτ h (fun n s hm => hd n s (List.mem_cons_of_mem _ hm))
        (tieVars_respects hτ hR (hd n s List.mem_cons_self))

theorem matchRules_respects {P : Py} {τ : String → Option Val} (hτ : ∀ y v, τ y = some v → DataVal v) :
    ∀ {l : List (Key × LVal)} {tmp sv sv' : SlotVals} {st st' : MatchSt}, TestsOnly l → (l.map Prod.fst).Nodup → NoRetr tmp →
    matchRules P l tmp sv st = .ok (sv', st') →
    (∀ b c n s, ((⟨'=', b⟩ : Key), LVal.chunk c) ∈ l → (n, s) ∈ c.slots →
      AgreeOn τ (tieSet (knownFor tmp b c.slots) n s) (tieVal (knownFor tmp b c.slots) n s)) →
    Respects τ st → Respects τ st'
  | [], tmp, sv, sv', st, st', _, _, _, h, _, hR => by
    simp only [matchRules, Except.ok.injEq, Prod.mk.injEq] at h
    obtain ⟨rfl, rfl⟩ := h
    exact hR
  | (k, v) :: r, tmp, sv, sv', st, st', hT, hn, hN, h, hd, hR => by
    simp only [List.map_cons, List.nodup_cons] at hn
    have hT' : TestsOnly r := fun k v hm => hT k v (List.mem_cons_of_mem _ hm)
    rcases hT k v List.mem_cons_self with ⟨hk, c, rfl⟩ | hk
    · rw [key_eta hk] at h hd hn
      obtain ⟨tmp', st1, h1, h2, h3, h4⟩ := matchRules_cons hN h
      refine matchRules_respects hτ hT' hn.2 h3 h2 (fun b c' n s hm hs => ?_)
        (matchDict_respects hτ h1 (fun n s hs => hd _ c n s List.mem_cons_self hs) hR)
      have hb : b ≠ k.name := by
        rintro rfl; exact hn.1 (List.mem_map.2 ⟨_, hm, rfl⟩)
      rw [knownFor_congr (h4 b hb)]
      exact hd b c' n s (List.mem_cons_of_mem _ hm) hs
    · simp only [matchRules] at h
      rw [if_neg (by rw [hk]; decide)] at h
      exact matchRules_respects hτ hT' hn.2 hN h (fun b c n s hm => hd b c n s (List.mem_cons_of_mem _ hm)) hR

/-! ## Slots that stay true -/

theorem forbids_hard {v a w : Val} (hv : Hard v) (hdv : DataVal v) (ha : DataVal a) (hw : DataVal w) (hs : SameVal a v) (hf : Forbids v w) :
    SameVal a w := by
  refine data_trans ha hdv hw hs ?_
  rcases hf with h | ⟨h1, h2⟩
  · exact h
  · obtain ⟨h3, h4⟩ := hv
    have := hw.2
    cases v <;> cases w <;> simp_all [Noneish, SameVal, Val.truthy]

theorem substSlot_var {P : Py} {m : List (String × String)} {val : List (String × Val)} {x z : VarVal}
    (h : substSlot P m val (.vv x) = .ok z) :
    (z.values = x.values ∧ (z.vars = Option.none ∨ ∃ u, x.vars = some u ∧ u ≠ "" ∧ z.vars = some (newVar m u))) ∨
      ∃ u v, x.vars = some u ∧ u ≠ "" ∧ alook u val = some v ∧ z.values = v ∧ z.vars = Option.none := by
  simp only [substSlot] at h
  have hsp : splitting (.vv x) = x := rfl
  rw [hsp] at h
  by_cases hv : optStrTruthy x.vars = true
  · simp only [hv, if_true] at h
    obtain ⟨u, hu, hne⟩ : ∃ u, x.vars = some u ∧ u ≠ "" := by
      rcases hu : x.vars with _ | u
      · rw [hu] at hv; simp [optStrTruthy] at hv
      · exact ⟨u, rfl, by rintro rfl; rw [hu] at hv; simp [optStrTruthy] at hv⟩
    simp only [hu, Option.getD_some] at h
    rcases hl : alook u val with _ | v
    · rw [hl] at h
      cases h
      exact Or.inl ⟨rfl, Or.inr ⟨u, hu, hne, rfl⟩⟩
    · rw [hl] at h
      simp only at h
      by_cases hxt : x.values.truthy = true
      · simp only [hxt, if_true] at h
        split at h
        · cases h; exact Or.inl ⟨rfl, Or.inl rfl⟩
        · cases h
      · simp only [hxt, if_false, Bool.false_eq_true] at h; cases h; exact Or.inr ⟨u, v, hu, hne, hl, rfl, rfl⟩
  · simp only [hv, if_false, Bool.false_eq_true] at h
    cases h
    exact Or.inl ⟨rfl, Or.inl rfl⟩

/-- A slot that is true before substitution is true after it. -/
theorem subst_true {P : Py} (cf : P.H.CollisionFree) {st : MatchSt} (snd : SoundMatch st) {τ : String → Option Val} (hR : Respects τ st)
    (hτ : ∀ y v, τ y = some v → DataVal v) {s : Slot} {z : VarVal} {w : Val} (hs : PlainSlotVals s)
    (h : substSlot P st.matched st.valued s = .ok z) (hw : DataVal w) (ht : SlotTrue τ s w) : SlotTrue τ (.vv z) w := by
  have hdv : ∀ n v, alook n st.valued = some v → DataVal v := by
    intro n v hv
    obtain ⟨h1, h2, h3⟩ := snd.vals n v hv
    exact ⟨h1, fun e => by rw [e] at h2; simp [Val.truthy] at h2⟩
  cases s with
  | empty =>
    rw [subst_silent rfl h]
    exact ⟨by simp [silent], by simp [silent], Or.inl trivial, by simp [silent]⟩
  | vv x =>
    obtain ⟨t1, t2, t3, t4⟩ := ht
    obtain ⟨pv, _, pn⟩ := hs x rfl
    obtain ⟨e1, e2, _⟩ := substSlot_cases h
    have e3 := substSlot_var h
    have new : ∀ u a, τ u = some a → ∃ b, τ (newVar st.matched u) = some b ∧ SameVal a b := by
      intro u a ha
      unfold newVar
      rcases hl : alook u st.matched with _ | u'
      · exact ⟨a, ha, data_refl (hτ _ _ ha)⟩
      · obtain ⟨a', b, ha', hb, hs⟩ := hR.vars u u' hl
        rw [ha] at ha'
        cases ha'
        exact ⟨b, hb, hs⟩
    refine ⟨fun y hy hne => ?_, fun y v hy hv hsame => ?_, ?_, fun v hv hf => ?_⟩
    · rcases e3 with ⟨_, h2⟩ | ⟨u, v, _, _, _, _, hzn⟩
      · rcases h2 with h2 | ⟨u, hu, hun, h2⟩
        · rw [h2] at hy; cases hy
        · rw [h2] at hy
          cases hy
          obtain ⟨a, ha, hsa⟩ := t1 u hu hun
          obtain ⟨b, hb, hsb⟩ := new u a ha
          exact ⟨b, hb, data_trans (hτ _ _ hb) (hτ _ _ ha) hw (sameVal_symm hsb) hsa⟩
      · rw [hzn] at hy; cases hy
    · rw [e1, (P.perm _).mem_iff, List.mem_dedup] at hy
      obtain ⟨y0, hy0, rfl⟩ := List.mem_map.1 hy
      have hy0 := (List.mem_filter.1 hy0).1
      rcases hl : alook y0 st.matched with _ | u'
      · rw [show newVar st.matched y0 = y0 by simp [newVar, hl]] at hv
        exact t2 y0 v hy0 hv hsame
      · rw [show newVar st.matched y0 = u' by simp [newVar, hl]] at hv
        obtain ⟨a, b, ha, hb, hs⟩ := hR.vars y0 u' hl
        rw [hv] at hb
        cases hb
        exact t2 y0 a hy0 ha (data_trans (hτ _ _ ha) (hτ _ _ hv) hw hs hsame)
    · rcases e3 with ⟨h1, _⟩ | ⟨u, v, hu, hun, hl, hz, _⟩
      · rw [h1]; exact t3
      · obtain ⟨a, ha, hsa⟩ := t1 u hu hun
        obtain ⟨a', ha', hsv⟩ := hR.vals u v hl
        rw [ha] at ha'
        cases ha'
        rw [hz]
        exact Or.inr (data_trans (hdv u v hl) (hτ _ _ ha) hw (sameVal_symm hsv) hsa)
    · rw [e2, (P.vperm _).mem_iff] at hv
      have hpl : ∀ v ∈ x.negvars.filterMap (fun z => alook z st.valued), PlainVal v := by
        intro v hv
        obtain ⟨z, _, hz⟩ := List.mem_filterMap.1 hv
        exact (snd.vals z v hz).1
      obtain ⟨f1, _, _, f4⟩ := addVals_facts cf x.negvalues [] (by simp) pn
      obtain ⟨g1, _, _, _⟩ := addVals_facts cf (x.negvars.filterMap (fun z => alook z st.valued)) (x.negvalues.foldl (addVal P.H) []) f4 hpl
      rcases g1 v hv with hv | hv
      · rcases f1 v hv with hv | hv
        · simp at hv
        · exact t4 v hv hf
      · obtain ⟨y0, hy0, hl⟩ := List.mem_filterMap.1 hv
        obtain ⟨a, ha, hs⟩ := hR.vals y0 v hl
        exact t2 y0 a hy0 ha (forbids_hard (snd.vals y0 v hl).2 (hdv y0 v hl) (hτ _ _ ha) hw hs hf)

/-- A slot that is true before renaming is true after it. -/
theorem rename_true {E : PyEnv} {name : String} {used : List String} {τ : String → Option Val} {s : Slot} {y : VarVal} {w : Val}
    (h : renameSlot E name used s = .ok y) (ht : SlotTrue (fun n => τ (ruleVar name n)) s w) : SlotTrue τ (.vv y) w := by
  cases s with
  | empty =>
    rw [rename_empty h]
    exact ⟨by simp [silent], by simp [silent], Or.inl trivial, by simp [silent]⟩
  | vv x =>
    have e := renameSlot_form h
    subst e
    obtain ⟨t1, t2, t3, t4⟩ := ht
    refine ⟨fun z hz hne => ?_, fun z v hz hv => ?_, t3, t4⟩
    · obtain ⟨x', u, e, hu, rfl⟩ := rename_vars h hz
      cases e
      refine t1 u hu ?_
      rintro rfl
      simp [splitting, hu, optStrTruthy] at hz
    · simp only at hz
      rw [(E.perm _).mem_iff, List.mem_dedup] at hz
      obtain ⟨u, hu, rfl⟩ := List.mem_map.1 hz
      exact t2 u v hu hv

/-! ## The conditions of the compiled rule -/

/-- Every condition after the second loop is one from before, one of the second rule, or made of two that ask about the same buffer. -/
theorem collapseLhs2_from {E : PyEnv} {reg : Reg} {rhs1 : List (Key × RVal)} {sv : SlotVals} {ret : Option String}
    {G : Key → LVal → Prop} (hu : ∀ k d1 d2, k.code = '?' → G k (.dict d1) → G k (.dict d2) →
      G k (.dict (d2.foldl (fun m p => aset p.1 p.2 m) d1))) :
    ∀ {p2 p1 l : List (Key × LVal)}, collapseLhs2 E reg (.ok rhs1) sv ret p2 p1 = .ok l → (∀ k v, (k, v) ∈ p1 → G k v) →
      (∀ k d, (k, LVal.dict d) ∈ p2 → k.code = '?' → G k (.dict d)) →
      (∀ k c2 c, (k, LVal.chunk c2) ∈ p2 → k.code = '=' → mkChunk E reg c2.typ (c2.slots.map (fun p => (p.1, slotArg p.2))) = .ok c →
        G k (.chunk c)) → ∀ k v, (k, v) ∈ l → G k v := by
  intro p2
  induction p2 with
  | nil =>
    intro p1 l h h1 _ _
    simp only [collapseLhs2, Except.ok.injEq] at h
    subst h
    exact h1
  | cons x r ih =>
    obtain ⟨m, u⟩ := x
    intro p1 l h h1 h2 h3
    have h2' : ∀ k d, (k, LVal.dict d) ∈ r → k.code = '?' → G k (.dict d) := fun k d hm => h2 k d (List.mem_cons_of_mem _ hm)
    have h3' : ∀ k c2 c, (k, LVal.chunk c2) ∈ r → k.code = '=' →
        mkChunk E reg c2.typ (c2.slots.map (fun p => (p.1, slotArg p.2))) = .ok c → G k (.chunk c) :=
      fun k c2 c hm => h3 k c2 c (List.mem_cons_of_mem _ hm)
    have set : ∀ w, G m w → ∀ k v, (k, v) ∈ kset m w p1 → G k v := by
      intro w hw k v hk
      rcases mem_kset hk with e | hk
      · cases e; exact hw
      · exact h1 k v hk
    simp only [collapseLhs2, Except.bind] at h
    by_cases hq : m.code = '?'
    · rw [if_pos hq] at h
      rcases ha : actsOn m.name rhs1 with e | b
      · rw [ha] at h; cases h
      rw [ha] at h
      cases b with
      | true => exact ih h h1 h2' h3'
      | false =>
        cases u with
        | chunk c => simp at h
        | dict d2 =>
          have hd2 := h2 m d2 List.mem_cons_self hq
          rcases hk1 : klook m p1 with _ | w
          · rw [hk1] at h
            exact ih h (set _ hd2) h2' h3'
          · rw [hk1] at h
            cases w with
            | chunk c => simp at h
            | dict d1 => exact ih h (set _ (hu m d1 d2 hq (h1 m _ (mem_of_klook hk1)) hd2)) h2' h3'
    · rw [if_neg hq] at h
      by_cases he : m.code = '='
      · rw [if_pos he] at h
        cases u with
        | dict d => simp at h
        | chunk c2 =>
          simp only at h
          by_cases hr : ((alook m.name sv).isNone && ret == some m.name) = true
          · rw [if_pos hr] at h
            exact ih h h1 h2' h3'
          · rw [if_neg hr] at h
            rcases hc : mkChunk E reg c2.typ (c2.slots.map (fun p => (p.1, slotArg p.2))) with e | c
            · rw [hc] at h; cases h
            · rw [hc] at h
              exact ih h (set _ (h3 m c2 c List.mem_cons_self he hc)) h2' h3'
      · rw [if_neg he] at h; cases h

theorem mem_aset {α : Type} {n m : String} {a b : α} : ∀ {l : List (String × α)}, (m, b) ∈ aset n a l → (m, b) = (n, a) ∨ (m, b) ∈ l
  | [], h => by simpa [aset] using h
  | (k, c) :: r, h => by
    simp only [aset] at h
    split at h
    · rename_i hk
      rcases List.mem_cons.1 h with h | h
      · exact Or.inl (by rw [h, hk])
      · exact Or.inr (List.mem_cons_of_mem _ h)
    · rcases List.mem_cons.1 h with h | h
      · exact Or.inr (by rw [h]; exact List.mem_cons_self)
      · exact (mem_aset h).imp_right (List.mem_cons_of_mem _)

theorem mem_update {a v : String} : ∀ {d m : List (String × String)}, (a, v) ∈ d.foldl (fun m p => aset p.1 p.2 m) m → (a, v) ∈ m ∨ (a, v) ∈ d
  | [], m, h => Or.inl h
  | (b, x) :: r, m, h => by
    rw [List.foldl_cons] at h
    rcases mem_update h with h | h
    · rcases mem_aset h with h | h
      · exact Or.inr (by rw [h]; exact List.mem_cons_self)
      · exact Or.inl h
    · exact Or.inr (List.mem_cons_of_mem _ h)

/-- Values and variables of two slots that are true of the same value agree on it. -/
theorem agreeOn_slots {τ : String → Option Val} {s t : Slot} {w : Val} (hw : DataVal w) (hs : SlotTrue τ s w) (ht : SlotTrue τ t w)
    (gs : GoodVal (splitting s).values) (gt : GoodVal (splitting t).values) :
    AgreeOn τ (slotVarSet (splitting s) (splitting t))
      (if (splitting s).values.truthy then (splitting s).values else (splitting t).values) := by
  have var : ∀ (u : Slot) v, SlotTrue τ u w → (splitting u).vars = some v → v ≠ "" → ∃ a, τ v = some a ∧ SameVal a w := by
    intro u v hu hv hne
    cases u with
    | empty => simp [splitting] at hv
    | vv x => exact hu.1 v hv hne
  have val : ∀ u : Slot, SlotTrue τ u w → GoodVal (splitting u).values → (splitting u).values.truthy = true →
      DataVal (splitting u).values ∧ SameVal (splitting u).values w := by
    intro u hu gu htr
    refine ⟨⟨gu.1, fun e => by rw [e] at htr; simp [Val.truthy] at htr⟩, ?_⟩
    cases u with
    | empty => simp [splitting, Val.truthy] at htr
    | vv x =>
      rcases hu.2.2.1 with h | h
      · exact absurd h (hard_required ⟨htr, gu.2⟩)
      · exact h
  refine ⟨w, hw, fun v hv => ?_, fun htr => ?_⟩
  · obtain ⟨hne, h | h⟩ := mem_slotVarSet hv
    · exact var s v hs h hne
    · exact var t v ht h hne
  · by_cases hst : (splitting s).values.truthy = true
    · rw [if_pos hst]
      exact val s hs gs hst
    · rw [if_neg hst] at htr ⊢
      exact val t ht gt htr

/-! ## Two rules that fire one after the other -/

section
variable {P : Py} {reg : Reg} {name2 : String} {l1 l2 lhs : List (Key × LVal)} {r1 r2 rhs : List (Key × RVal)}
  {sv : SlotVals} {bufs : List (String × CBuf)} {faces faces' : Faces} {σ1 σ2 : String → Option Val}

/-- Everything that is assumed about the two rules and the buffers. -/
structure RulesInRow (P : Py) (reg : Reg) (l1 : List (Key × LVal)) (r1 : List (Key × RVal)) (l2 : List (Key × LVal))
    (r2 : List (Key × RVal)) (name2 : String) (sv : SlotVals) (faces faces' : Faces) (σ1 σ2 : String → Option Val) : Prop where
  cf : P.H.CollisionFree
  types : RegOk P.toPyEnv reg
  dict1 : DictBody ⟨.ok l1, .ok r1⟩
  dict2 : DictBody ⟨.ok l2, .ok r2⟩
  good1 : GoodRule reg l1 r1
  good2 : GoodRule reg l2 r2
  queries1 : QueriesAreDicts l1
  queries2 : QueriesAreDicts l2
  names1 : PlainNames l1
  names2 : PlainNames l2
  data : DataMentioned (l1 ++ l2) sv
  patterns1 : GoodPatterns l1
  patterns2 : GoodPatterns l2
  buffers1 : GoodBuffers DataVal faces l1
  buffers2 : GoodBuffers DataVal faces l2
  mod1 : ModifyingRule reg l1 r1
  mod2 : ModifyingRule reg l2 r2
  known : Recorded l1 r1 sv
  full : Furnished l1 r1 l2 r2 faces
  fit : Replaceable name2 l1 r1 l2 r2 sv
  holds1 : RuleHolds DataVal faces l1 σ1
  step1 : Modified σ1 r1 faces faces'
  holds2 : RuleHolds DataVal faces' l2 σ2

open Classical in
/-- The assignment for the compiled rule. -/
noncomputable def jointAssign (name2 : String) (l1 l2 : List (Key × LVal)) (faces : Faces) (σ1 σ2 : String → Option Val) :
    String → Option Val := fun v =>
  if Tested l1 v ∨ Tested l2 v then (alook v faces).bind (fun f => f.data.head?.map Chunk.val)
  else if h : ∃ u, v = ruleVar name2 u then σ2 h.choose else σ1 v

theorem RulesInRow.joint1 (S : RulesInRow P reg l1 r1 l2 r2 name2 sv faces faces' σ1 σ2) {y : String} (hy : PosVar l1 y ∨ NegVar l1 y) :
    jointAssign name2 l1 l2 faces σ1 σ2 y = σ1 y := by
  simp only [jointAssign]
  rw [if_neg, dif_neg]
  · rintro ⟨u, hu⟩
    exact S.fit.fresh y u hy hu
  · intro ht
    obtain ⟨h1, h2, _⟩ := S.fit.names y ht
    rcases hy with hy | hy
    · exact h1 hy
    · exact h2 hy

theorem RulesInRow.joint2 (S : RulesInRow P reg l1 r1 l2 r2 name2 sv faces faces' σ1 σ2) (u : String) :
    jointAssign name2 l1 l2 faces σ1 σ2 (ruleVar name2 u) = σ2 u := by
  simp only [jointAssign]
  have hex : ∃ u', ruleVar name2 u = ruleVar name2 u' := ⟨u, rfl⟩
  rw [if_neg, dif_pos hex, ← ruleVar_inj hex.choose_spec]
  intro ht
  exact (S.fit.names _ ht).2.2 u rfl

theorem RulesInRow.jointData (S : RulesInRow P reg l1 r1 l2 r2 name2 sv faces faces' σ1 σ2) (y : String) (v : Val)
    (h : jointAssign name2 l1 l2 faces σ1 σ2 y = some v) : DataVal v := by
  simp only [jointAssign] at h
  split at h
  · rename_i ht
    rcases hf : alook y faces with _ | f
    · simp [hf] at h
    · rcases hd : f.data with _ | ⟨d, rest⟩
      · simp [hf, hd] at h
      · simp only [hf, hd, Option.bind_some, List.head?_cons, Option.map_some, Option.some.injEq] at h
        subst h
        rcases ht with ⟨c, hc⟩ | ⟨c, hc⟩
        · exact (S.buffers1.chunk y c f d rest hc hf hd).2.2.2.2
        · exact (S.buffers2.chunk y c f d rest hc hf hd).2.2.2.2
  · split at h
    · exact S.holds2.data _ _ h
    · exact S.holds1.data _ _ h

theorem RulesInRow.jointSelf (S : RulesInRow P reg l1 r1 l2 r2 name2 sv faces faces' σ1 σ2) {b : String} (hb : Tested l1 b ∨ Tested l2 b)
    {f : BufFace} {d : Chunk} {rest : List Chunk} (hf : alook b faces = some f) (hd : f.data = d :: rest) :
    ∃ v, jointAssign name2 l1 l2 faces σ1 σ2 b = some v ∧ SameVal v d.val := by
  have e : jointAssign name2 l1 l2 faces σ1 σ2 b = some d.val := by
    simp only [jointAssign]
    rw [if_pos hb]
    simp [hf, hd]
  exact ⟨_, e, data_refl (S.jointData _ _ e)⟩

theorem RulesInRow.data2 (S : RulesInRow P reg l1 r1 l2 r2 name2 sv faces faces' σ1 σ2) : DataMentioned l2 sv := by
  intro v hv
  apply S.data
  cases hv with
  | test h1 h2 => exact .test (List.mem_append_right _ h1) h2
  | known h1 h2 => exact .known h1 h2
  | retrieved h1 h2 => exact .retrieved h1 h2

theorem RulesInRow.sound (S : RulesInRow P reg l1 r1 l2 r2 name2 sv faces faces' σ1 σ2)
    (C : Compiling P reg l1 r1 l2 r2 name2 sv bufs lhs rhs) : SoundMatch C.st := C.sound S.types S.good2 S.data2

/-- A buffer that the first rule tests. -/
theorem RulesInRow.face1 (S : RulesInRow P reg l1 r1 l2 r2 name2 sv faces faces' σ1 σ2) {b : String} {c1 : Chunk}
    (hc : ((⟨'=', b⟩ : Key), LVal.chunk c1) ∈ l1) : ∃ f d rest, alook b faces = some f ∧ f.data = d :: rest ∧
      ∀ n s, (n, s) ∈ c1.slots → n ∈ d.slots.map Prod.fst ∧ SlotTrue (jointAssign name2 l1 l2 faces σ1 σ2) s (matchingVal d n) := by
  have h := S.holds1.conds _ hc
  cases h with
  | @test _ _ f d rest hf hd hcond _ =>
    refine ⟨f, d, rest, hf, hd, fun n s hs => ⟨?_, ?_⟩⟩
    · obtain ⟨s', hs'⟩ := S.full.tests b c1 f d rest (List.mem_append_left _ hc) hf hd n s hs
      exact List.mem_map.2 ⟨_, hs', rfl⟩
    · refine slotTrue_congr (condHolds_iff.1 hcond n s _ hs ((slotHas_iff (S.full.data b f d rest hf hd).named _ _).2 rfl)) ?_
      intro x y hx hy
      subst hx
      refine S.joint1 ?_
      rcases hy with hy | hy
      · exact Or.inl ⟨b, c1, n, x, hc, hs, hy⟩
      · exact Or.inr ⟨b, c1, n, x, hc, hs, hy⟩

/-- A buffer before and after the first rule. -/
structure AcrossStep (r1 : List (Key × RVal)) (faces faces' : Faces) (b : String) (f : BufFace) (d : Chunk) (rest : List Chunk) (d' : Chunk) : Prop where
  face : alook b faces = some f
  data : f.data = d :: rest
  face' : alook b faces' = some { f with data := d' :: rest }
  chunk : DataChunk d
  chunk' : DataChunk d'
  names : ∀ n, n ∈ d'.slots.map Prod.fst ↔ n ∈ d.slots.map Prod.fst
  kept : ∀ n, n ∈ d.slots.map Prod.fst → (∀ c x, ((⟨'=', b⟩ : Key), RVal.chunk c) ∈ r1 → (n, SlotOf.vv x) ∉ c.slots) →
    SameVal (matchingVal d n) (matchingVal d' n)

theorem RulesInRow.across (S : RulesInRow P reg l1 r1 l2 r2 name2 sv faces faces' σ1 σ2) {b : String} {f' : BufFace} {d' : Chunk}
    {rest : List Chunk} (hf' : alook b faces' = some f') (hd' : f'.data = d' :: rest) :
    ∃ f d, AcrossStep r1 faces faces' b f d rest d' ∧ ∀ c, ((⟨'=', b⟩ : Key), RVal.chunk c) ∈ r1 → Changed σ1 c d d' := by
  have uniq : ∀ b c c', ((⟨'=', b⟩ : Key), RVal.chunk c) ∈ r1 → ((⟨'=', b⟩ : Key), RVal.chunk c') ∈ r1 → c' = c := by
    intro b c c' h h'
    have h1 := klook_of_mem (S.dict1.rhs r1 rfl).1 h
    rw [klook_of_mem (S.dict1.rhs r1 rfl).1 h'] at h1
    cases h1; rfl
  by_cases hb : ∃ c, ((⟨'=', b⟩ : Key), RVal.chunk c) ∈ r1
  · obtain ⟨c, hc⟩ := hb
    obtain ⟨f, d, rest0, d0, h1, h2, h3, h4⟩ := S.step1.acted b c hc
    rw [hf'] at h3
    cases h3
    cases hd'
    have hdd := S.full.data b f d rest h1 h2
    refine ⟨f, d, ⟨h1, h2, hf', hdd, h4.data, h4.names, fun n hn hno => ?_⟩, fun e he => uniq b c e hc he ▸ h4⟩
    exact h4.kept n _ _ (fun x hx => hno c x hc hx.1) ((slotHas_iff hdd.named _ _).2 rfl) ((slotHas_iff h4.data.named _ _).2 rfl)
  · have hno : ∀ c, ((⟨'=', b⟩ : Key), RVal.chunk c) ∉ r1 := fun c h => hb ⟨c, h⟩
    have hf := S.step1.rest b hno
    rw [hf'] at hf
    have hdd := S.full.data b f' d' rest hf.symm hd'
    refine ⟨f', d', ⟨hf.symm, hd', ?_, hdd, hdd, fun n => Iff.rfl, fun n hn _ => data_refl (matchingVal_dataVal hdd hn)⟩, fun c h => absurd h (hno c)⟩
    rw [hf', ← hd']

/-- What is known about a buffer after the first rule is true. -/
theorem RulesInRow.knownTrue (S : RulesInRow P reg l1 r1 l2 r2 name2 sv faces faces' σ1 σ2) {b : String} {f : BufFace} {d d' : Chunk}
    {rest : List Chunk} (hx : AcrossStep r1 faces faces' b f d rest d')
    (hch : ∀ c, ((⟨'=', b⟩ : Key), RVal.chunk c) ∈ r1 → Changed σ1 c d d') {dk : Slots} (hdk : alook b sv = some (.dict dk)) {n : String} {y : VarVal}
    (hy : alook n dk = some (.vv y)) :
    n ∈ d.slots.map Prod.fst ∧ SlotTrue (jointAssign name2 l1 l2 faces σ1 σ2) (.vv y) (matchingVal d' n) ∧ GoodVal y.values ∧
      ∀ v ∈ y.negvalues, PlainVal v := by
  by_cases hb : ∃ c, ((⟨'=', b⟩ : Key), RVal.chunk c) ∈ r1
  · obtain ⟨c, hc⟩ := hb
    obtain ⟨dk', hdk', hK⟩ := S.known.acted b c hc
    rw [hdk] at hdk'
    cases hdk'
    by_cases hset : ∃ x, (n, SlotOf.vv x) ∈ c.slots
    · obtain ⟨x, hxm⟩ := hset
      rw [hK.2.1 n x hxm] at hy
      have hy : x = y := by cases hy; rfl
      subst hy
      have hpa := S.mod1.acts b c n x hc hxm
      have hn : n ∈ d.slots.map Prod.fst := by
        obtain ⟨s', hs'⟩ := S.full.acts b c f d rest (List.mem_append_left _ hc) hx.face hx.data n _ hxm
        exact List.mem_map.2 ⟨_, hs', rfl⟩
      have hg := (hch c hc).given n x _ ⟨hxm, hpa.says.speaks⟩ ((slotHas_iff hx.chunk'.named _ _).2 rfl)
      refine ⟨hn, gives_true (gives_congr hg (fun y hy => S.joint1 (Or.inl (S.mod1.bound b c n x y hc hxm hy)))), hpa.good, ?_⟩
      intro v hv
      rw [hpa.plain.2] at hv
      simp at hv
    · have hno : ∀ x, (n, SlotOf.vv x) ∉ c.slots := fun x h => hset ⟨x, h⟩
      obtain ⟨k1, k2⟩ := hK.2.2 n hno
      by_cases ht : ∃ c1, ((⟨'=', b⟩ : Key), LVal.chunk c1) ∈ l1
      · obtain ⟨c1, hc1⟩ := ht
        have hy1 := alook_mem ((k1 c1 hc1).symm.trans hy)
        obtain ⟨f0, d0, rest0, hf0, hd0, hall⟩ := S.face1 hc1
        rw [hx.face] at hf0
        cases hf0
        rw [hx.data] at hd0
        cases hd0
        obtain ⟨hn, htrue⟩ := hall n _ hy1
        have hp := (S.patterns1 b c1 hc1).2 n y hy1
        have hdat := S.data _ (.test (List.mem_append_left _ hc1) hy1)
        refine ⟨hn, ?_, hdat, hp.2⟩
        refine slotTrue_same S.jointData (fun x e => by cases e; exact hp.1) (matchingVal_dataVal hx.chunk hn)
          (matchingVal_dataVal hx.chunk' ((hx.names n).2 hn)) (hx.kept n hn ?_) htrue
        intro c' x hc' hxm
        have h1 := klook_of_mem (S.dict1.rhs r1 rfl).1 hc
        rw [klook_of_mem (S.dict1.rhs r1 rfl).1 hc'] at h1
        cases h1
        exact hno x hxm
      · rw [k2 (fun c1 h => ht ⟨c1, h⟩)] at hy
        cases hy
  · rcases S.known.rest b (fun c h => hb ⟨c, h⟩) with h | h <;> rw [hdk] at h <;> cases h

/-- A buffer that the second rule tests. -/
theorem RulesInRow.face2 (S : RulesInRow P reg l1 r1 l2 r2 name2 sv faces faces' σ1 σ2) {b : String} {c2 : Chunk}
    (hc : ((⟨'=', b⟩ : Key), LVal.chunk c2) ∈ l2) : ∃ f d rest d', AcrossStep r1 faces faces' b f d rest d' ∧
      (∀ c, ((⟨'=', b⟩ : Key), RVal.chunk c) ∈ r1 → Changed σ1 c d d') ∧
      ∀ n s, (n, s) ∈ c2.slots → n ∈ d.slots.map Prod.fst ∧ SlotTrue (fun u => jointAssign name2 l1 l2 faces σ1 σ2 (ruleVar name2 u)) s (matchingVal d' n) := by
  have h := S.holds2.conds _ hc
  cases h with
  | @test _ _ f' d' rest hf hd hcond _ =>
    obtain ⟨f, d, hx, hch⟩ := S.across hf hd
    refine ⟨f, d, rest, d', hx, hch, fun n s hs => ⟨?_, ?_⟩⟩
    · obtain ⟨s', hs'⟩ := S.full.tests b c2 f d rest (List.mem_append_right _ hc) hx.face hx.data n s hs
      exact List.mem_map.2 ⟨_, hs', rfl⟩
    · refine slotTrue_congr (condHolds_iff.1 hcond n s _ hs ((slotHas_iff hx.chunk'.named _ _).2 rfl)) ?_
      intro x y _ _
      exact S.joint2 y

theorem goodVal_none : GoodVal (splitting (SlotOf.empty : Slot)).values := ⟨trivial, by simp [splitting]⟩

/-- The assignment respects what compilation ties together. -/
theorem RulesInRow.respects (S : RulesInRow P reg l1 r1 l2 r2 name2 sv faces faces' σ1 σ2)
    (C : Compiling P reg l1 r1 l2 r2 name2 sv bufs lhs rhs) : Respects (jointAssign name2 l1 l2 faces σ1 σ2) C.st := by
  refine matchRules_respects S.jointData (C.testsOnly S.good2 S.mod2.codes) (by rw [keys_mapped C.hm2]; exact (S.dict2.lhs l2 rfl).1)
    (recorded_noRetr S.known).2 C.hst ?_ ⟨by simp [alook], by simp [alook]⟩
  intro b cr n s hm hs
  obtain ⟨u, hu, hfu⟩ := mapped_from C.hm2 hm
  obtain ⟨c2, rfl, hcr⟩ := mapLVal_chunk rfl hfu
  obtain ⟨c2', e, hk2⟩ := S.good2.lhs _ _ hu (by simp)
  cases e
  obtain ⟨_, nr, _, i2, _⟩ := mapChunk_ok S.types hk2.1 hcr
  obtain ⟨f, d, rest, d', hx, hch, hall⟩ := S.face2 hu
  -- what the second rule says
  have own : s = .empty ∨ n ∈ d.slots.map Prod.fst ∧ SlotTrue (jointAssign name2 l1 l2 faces σ1 σ2) s (matchingVal d' n) ∧
      GoodVal (splitting s).values := by
    rcases i2 n s hs with rfl | ⟨s0, y, hs0, hy, rfl⟩
    · exact Or.inl rfl
    · obtain ⟨h1, h2⟩ := hall n s0 hs0
      refine Or.inr ⟨h1, rename_true hy h2, ?_⟩
      have : (splitting (SlotOf.vv y)).values = (splitting s0).values := by
        rw [renameSlot_form hy]; rfl
      rw [this]
      cases s0 with
      | empty => exact goodVal_none
      | vv x => exact S.data2 _ (.test hu hs0)
  -- what is known
  have known : (alook n (knownFor sv b cr.slots)).getD .empty = .empty ∨ n ∈ d.slots.map Prod.fst ∧
      SlotTrue (jointAssign name2 l1 l2 faces σ1 σ2) ((alook n (knownFor sv b cr.slots)).getD .empty) (matchingVal d' n) ∧
      GoodVal (splitting ((alook n (knownFor sv b cr.slots)).getD .empty)).values := by
    rcases ha : alook b sv with _ | i
    · simp only [knownFor, ha, alook_of_mem nr hs, Option.getD_some]
      exact own
    · cases i with
      | nothing => exact Or.inl (by simp [knownFor, ha, alook])
      | retr dk c => exact absurd ha ((recorded_noRetr S.known).2 b dk c)
      | dict dk =>
        simp only [knownFor, ha]
        rcases hn : alook n dk with _ | t
        · exact Or.inl rfl
        · cases t with
          | empty => exact Or.inl rfl
          | vv y =>
            obtain ⟨h1, h2, h3, _⟩ := S.knownTrue hx hch ha hn
            exact Or.inr ⟨h1, h2, h3⟩
  rcases own with rfl | ⟨h1, h2, h3⟩
  · rcases known with e | ⟨h1, h2, h3⟩
    · have : tieSet (knownFor sv b cr.slots) n .empty = [] := by
        simp only [tieSet, e]
        simp [slotVarSet, splitting, optStrTruthy]
      rw [this]
      have : tieVal (knownFor sv b cr.slots) n .empty = .none := by
        simp only [tieVal, e]
        simp [splitting, Val.truthy]
      rw [this]
      exact ⟨.str "", ⟨trivial, by simp⟩, by simp, by simp [Val.truthy]⟩
    · exact agreeOn_slots (matchingVal_dataVal hx.chunk' ((hx.names n).2 h1)) trivial h2 goodVal_none h3
  · rcases known with e | ⟨_, h5, h6⟩
    · have := agreeOn_slots (s := s) (t := .empty) (matchingVal_dataVal hx.chunk' ((hx.names n).2 h1)) h2 trivial h3 goodVal_none
      simp only [tieSet, tieVal, e]
      exact this
    · exact agreeOn_slots (matchingVal_dataVal hx.chunk' ((hx.names n).2 h1)) h2 h5 h3 h6

/-- A slot that only the second rule tests is as it was before the first rule. -/
theorem RulesInRow.secondTrue (S : RulesInRow P reg l1 r1 l2 r2 name2 sv faces faces' σ1 σ2) {b : String} {c2 : Chunk}
    (hc : ((⟨'=', b⟩ : Key), LVal.chunk c2) ∈ l2) {f : BufFace} {d : Chunk} {rest : List Chunk} (hf : alook b faces = some f)
    (hd : f.data = d :: rest) {n : String} {s : Slot} (hs : (n, s) ∈ c2.slots)
    (hno : ∀ c1 y, ((⟨'=', b⟩ : Key), LVal.chunk c1) ∈ l1 → (n, SlotOf.vv y) ∉ c1.slots) :
    n ∈ d.slots.map Prod.fst ∧ SlotTrue (fun u => jointAssign name2 l1 l2 faces σ1 σ2 (ruleVar name2 u)) s (matchingVal d n) := by
  obtain ⟨f0, d0, rest0, d', hx, hch, hall⟩ := S.face2 hc
  have hf0 := hx.face
  rw [hf] at hf0
  cases hf0
  have hd0 := hx.data
  rw [hd] at hd0
  cases hd0
  obtain ⟨hn, ht⟩ := hall n s hs
  refine ⟨hn, ?_⟩
  cases s with
  | empty => trivial
  | vv x =>
    have hp := (S.patterns2 b c2 hc).2 n x hs
    refine slotTrue_same (fun y v h => S.jointData _ v h) (fun x' e => by cases e; exact hp.1)
      (matchingVal_dataVal hx.chunk' ((hx.names n).2 hn)) (matchingVal_dataVal hx.chunk hn) (sameVal_symm (hx.kept n hn ?_)) ht
    intro c x0 hc0 hx0
    obtain ⟨dk, hdk, hK⟩ := S.known.acted b c hc0
    obtain ⟨c1, y', h1, h2⟩ := S.fit.tested b n x x0 ⟨c, c2, dk, hc0, hc, hs, hdk, hK.2.1 n x0 hx0⟩
    exact hno c1 y' h1 h2

/-- A slot that says something says something after substitution. -/
theorem subst_loud {P : Py} (cf : P.H.CollisionFree) {st : MatchSt} (snd : SoundMatch st) {x z : VarVal} (hx : SaysSomething x)
    (hg : GoodVal x.values) (hp : ∀ v ∈ x.negvalues, PlainVal v) (h : substSlot P st.matched st.valued (.vv x) = .ok z) (t : Slot) :
    mergeParts (.vv z) t = z := by
  have tell : TellsValue x → mergeParts (.vv z) t = z := fun hx => (subst_says snd h hg.2 hx).merge t
  have neg : ¬ (z.negvars = [] ∧ z.negvalues = []) → mergeParts (.vv z) t = z := by
    intro hn
    have : (z.values.truthy || optStrTruthy z.vars || !z.negvalues.isEmpty || !z.negvars.isEmpty) = true := by
      by_cases h1 : z.negvars = []
      · have h2 : z.negvalues ≠ [] := fun e => hn ⟨h1, e⟩
        simp [h2]
      · simp [h1]
    simp only [mergeParts, splitting, this, if_true]
  rcases hx.some with h1 | h1 | h1 | h1
  · rcases hx.value with h2 | h2
    · exact absurd h2 h1
    · exact tell (Or.inl (hard_of_required h2))
  · rcases hv : x.vars with _ | u
    · exact absurd hv h1
    · exact tell (Or.inr ⟨u, hv, fun e => hx.var (by rw [hv, e])⟩)
  · exact neg (fun e => h1 (subst_plain cf snd hp h e).1)
  · exact neg (fun e => h1 (subst_plain cf snd hp h e).2)

theorem silent_true {τ : String → Option Val} {w : Val} : SlotTrue τ (.vv silent) w :=
  ⟨by simp [silent], by simp [silent], Or.inl trivial, by simp [silent]⟩

/-- Slots that are described as text are given as values. -/
theorem mkChunk_from {E : PyEnv} {reg : Reg} (hr : RegOk E reg) {c2 c : Chunk} (hn : Named c2)
    (h : mkChunk E reg c2.typ (c2.slots.map (fun p => (p.1, slotArg p.2))) = .ok c) (hv : ∀ n s, (n, s) ∈ c2.slots → ∃ y, s = .vv y)
    {n : String} {s : Slot} (hm : (n, s) ∈ c.slots) : s = .empty ∨ (n, s) ∈ c2.slots := by
  have hlist : (c2.slots.map (fun p => (p.1, slotArg p.2))) =
      (c2.slots.map (fun p => (p.1, splitting p.2))).map (fun p => (p.1, SlotArg.vv p.2)) := by
    rw [List.map_map]
    apply List.map_congr_left
    rintro ⟨n, s⟩ hs
    obtain ⟨y, rfl⟩ := hv n s hs
    rfl
  rw [hlist] at h
  have hkeys : (c2.slots.map (fun p => (p.1, splitting p.2))).map Prod.fst = c2.slots.map Prod.fst := by
    rw [List.map_map]; rfl
  obtain ⟨_, _, _, i, _⟩ := mkChunk_parts hr (by rw [hkeys]; exact hn) h
  rcases i n s hm with h | ⟨y, hy, rfl⟩
  · exact Or.inl h
  · obtain ⟨⟨n', s'⟩, hs', e⟩ := List.mem_map.1 hy
    simp only [Prod.mk.injEq] at e
    obtain ⟨rfl, rfl⟩ := e
    obtain ⟨y, rfl⟩ := hv _ _ hs'
    exact Or.inr hs'

/-- The conditions of the compiled rule hold where those of the two rules hold one after the other. -/
theorem RulesInRow.lhsHolds (S : RulesInRow P reg l1 r1 l2 r2 name2 sv faces faces' σ1 σ2)
    (C : Compiling P reg l1 r1 l2 r2 name2 sv bufs lhs rhs) : RuleHolds DataVal faces lhs (jointAssign name2 l1 l2 faces σ1 σ2) := by
  have snd := S.sound C
  have hR := S.respects C
  obtain ⟨k1, k2, k3, k4⟩ := collapseLhs1_keeps C.hp
  have hcodes := collapseLhs1_codes C.hp
  have hkeys : (C.p.1.map Prod.fst).Nodup := by
    rw [(collapseLhs1_ok C.hp).1, keys_mapped C.hl1]; exact (S.dict1.lhs l1 rfl).1
  -- a chunk of the second rule before and after renaming and substitution
  have back2 : ∀ b (v : LVal), ((⟨'=', b⟩ : Key), v) ∈ C.l2' → ∃ c2' c2, v = .chunk c2' ∧ ((⟨'=', b⟩ : Key), LVal.chunk c2) ∈ l2 ∧
      Named c2' ∧ ∀ n s, (n, s) ∈ c2'.slots → s = .vv silent ∨ ∃ s0 y z, (n, s0) ∈ c2.slots ∧
        renameSlot P.toPyEnv name2 C.sc.used s0 = .ok y ∧ substSlot P C.st.matched C.st.valued (.vv y) = .ok z ∧ s = .vv z := by
    intro b v hm
    obtain ⟨w, hw, hfw⟩ := mapped_from C.hl2 hm
    obtain ⟨u, hu, hfu⟩ := mapped_from C.hm2 hw
    obtain ⟨c2, rfl, hk2⟩ := S.good2.lhs _ _ hu (by simp)
    obtain ⟨cr, rfl, hcr⟩ := mapLVal_test hfu
    obtain ⟨c2', rfl, hc2'⟩ := mapLVal_test hfw
    obtain ⟨tr, nr, _, ir, fr⟩ := mapChunk_ok S.types hk2.1 hcr
    obtain ⟨_, ns, is, _, _⟩ := mapChunk_full S.types nr (by rw [tr]; exact fr) hc2'
    refine ⟨c2', c2, rfl, hu, ns, fun n s hs => ?_⟩
    obtain ⟨s1, z, hs1, hz, rfl⟩ := (is n s).1 hs
    rcases ir n s1 hs1 with rfl | ⟨s0, y, hs0, hy, rfl⟩
    · exact Or.inl (by rw [subst_silent rfl hz])
    · exact Or.inr ⟨s0, y, z, hs0, hy, hz, rfl⟩
  -- a slot of the second rule that the first one does not test
  have true2 : ∀ b c2 f d rest n s0 y z, ((⟨'=', b⟩ : Key), LVal.chunk c2) ∈ l2 → alook b faces = some f → f.data = d :: rest →
      (n, s0) ∈ c2.slots → (∀ c1 y, ((⟨'=', b⟩ : Key), LVal.chunk c1) ∈ l1 → (n, SlotOf.vv y) ∉ c1.slots) →
      renameSlot P.toPyEnv name2 C.sc.used s0 = .ok y → substSlot P C.st.matched C.st.valued (.vv y) = .ok z →
      SlotTrue (jointAssign name2 l1 l2 faces σ1 σ2) (.vv z) (matchingVal d n) := by
    intro b c2 f d rest n s0 y z hc2 hf hd hs0 hno hy hz
    obtain ⟨hn, ht⟩ := S.secondTrue hc2 hf hd hs0 hno
    refine subst_true S.cf snd hR S.jointData (plain_rename hy ?_) hz (matchingVal_dataVal (S.full.data b f d rest hf hd) hn) (rename_true hy ht)
    intro x e
    subst e
    have hp := (S.patterns2 b c2 hc2).2 n x hs0
    exact ⟨hp.1, (S.data2 _ (.test hc2 hs0)).2, hp.2⟩
  -- queries of the second rule
  have asks2 : ∀ b d, ((⟨'?', b⟩ : Key), LVal.dict d) ∈ l2 → ∀ a v, (a, v) ∈ d → ∃ f, alook b faces = some f ∧ QueryHolds f a v := by
    intro b d hm a v ha
    have h := S.holds2.conds _ hm
    cases h with
    | query hall =>
    obtain ⟨f', hf', hq⟩ := hall a v ha
    by_cases hb : ∃ c, ((⟨'=', b⟩ : Key), RVal.chunk c) ∈ r1
    · obtain ⟨c, hc⟩ := hb
      obtain ⟨f, d0, rest, d1, h1, h2, h3, _⟩ := S.step1.acted b c hc
      rw [hf'] at h3
      cases h3
      refine ⟨f, h1, ?_⟩
      simp only [QueryHolds, h2] at hq ⊢
      simpa using hq
    · rw [S.step1.rest b (fun c h => hb ⟨c, h⟩)] at hf'
      exact ⟨f', hf', hq⟩
  refine ⟨S.jointData, ?_⟩
  rintro ⟨k, v⟩ hkv
  refine collapseLhs2_from (G := fun k v => CondTrue faces (jointAssign name2 l1 l2 faces σ1 σ2) (k, v)) ?_ C.hlhs ?_ ?_ ?_ k v hkv
  · rintro ⟨code, b⟩ d1 d2 hc h1 h2
    simp only at hc
    subst hc
    cases h1 with
    | query q1 =>
    cases h2 with
    | query q2 =>
    refine .query (fun a x hx => ?_)
    rcases mem_update hx with h | h
    · exact q1 a x h
    · exact q2 a x h
  · -- conditions of the first rule
    rintro ⟨code, b⟩ v' hv'
    obtain ⟨⟨k', v1⟩, hm1, e⟩ := List.mem_map.1 (show (⟨code, b⟩ : Key) ∈ C.l1'.map Prod.fst by
      rw [← (collapseLhs1_ok C.hp).1]; exact List.mem_map.2 ⟨_, hv', rfl⟩)
    simp only at e
    subst e
    obtain ⟨v'', hv'', hM⟩ := k1 _ _ hm1
    have : v'' = v' := by
      have h1 := klook_of_mem hkeys hv''
      rw [klook_of_mem hkeys hv'] at h1
      cases h1; rfl
    subst this
    obtain ⟨v, hv, hf1⟩ := mapped_from C.hl1 hm1
    rcases hcodes _ _ hm1 with hc | hc <;> simp only at hc <;> subst hc
    · obtain ⟨c1, rfl, hc1⟩ := S.good1.lhs _ _ hv (by simp)
      obtain ⟨c1', rfl, hmap⟩ := mapLVal_test hf1
      obtain ⟨_, hnamed, h3, h4, _⟩ := mapChunk_ok S.types hc1.1 hmap
      obtain ⟨f, d, rest, hf, hd, hall⟩ := S.face1 hv
      have hdd := S.full.data b f d rest hf hd
      have plain1 : ∀ n s, (n, s) ∈ c1.slots → PlainSlotVals s := by
        intro n s hs x e
        subst e
        have hp := (S.patterns1 b c1 hv).2 n x hs
        exact ⟨hp.1, (S.data _ (.test (List.mem_append_left _ hv) hs)).2, hp.2⟩
      have first : ∀ n s, (n, s) ∈ c1'.slots → SlotTrue (jointAssign name2 l1 l2 faces σ1 σ2) s (matchingVal d n) := by
        intro n s hs
        rcases h4 n s hs with rfl | ⟨s0, z, hs0, hz, rfl⟩
        · trivial
        · obtain ⟨hn, ht⟩ := hall n s0 hs0
          exact subst_true S.cf snd hR S.jointData (plain1 n s0 hs0) hz (matchingVal_dataVal hdd hn) ht
      have self := S.jointSelf (Or.inl ⟨c1, hv⟩) hf hd
      rcases hM with e | ⟨_, c1a, c2', c, a, e1, e2, e3, e4, e5⟩
      · subst e
        refine .test hf hd (condHolds_iff.2 fun n s w hs hw => ?_) self
        rw [slotHas_iff hdd.named] at hw
        subst hw
        exact first n s hs
      · cases e1
        subst e5
        obtain ⟨c2x, c2, ex, hc2, n2, sh⟩ := back2 b _ e2
        cases ex
        refine .test hf hd (condHolds_iff.2 fun n s w hs hw => ?_) self
        rw [slotHas_iff hdd.named] at hw
        subst hw
        obtain ⟨bl, rfl, hfo⟩ := mergeSlots_ok e3
        have hk : bl.map Prod.fst = c2'.slots.map Prod.fst := forall₂_names hfo (fun _ _ h => h.1)
        obtain ⟨_, _, _, i4, _⟩ := mkChunk_parts S.types (by rw [hk]; exact n2) e4
        rcases i4 n s hs with rfl | ⟨y, hy, rfl⟩
        · trivial
        obtain ⟨⟨n0, s2⟩, hs2, hn0, t, ht, hq⟩ := forall₂_right hfo hy
        simp only at hn0 ht hq
        subst hn0 hq
        by_cases hx1 : ∃ x, (n, SlotOf.vv x) ∈ c1.slots
        · -- the first rule tests it
          obtain ⟨x, hx⟩ := hx1
          obtain ⟨z, hz, hzm⟩ := h3 n _ hx
          rw [alook_of_mem hnamed hzm] at ht
          cases ht
          obtain ⟨hp1, hp2, hp3⟩ := plain1 n _ hx x rfl
          rw [subst_loud S.cf snd (S.mod1.tests b c1 n x hv hx) ⟨hp1, hp2⟩ hp3 hz]
          exact first n _ hzm
        · -- the first rule does not test it
          have hmp : mergeParts t s2 = splitting s2 := by
            have htm := alook_mem ht
            rcases h4 n t htm with rfl | ⟨s0, z, hs0, hz, rfl⟩
            · simp [mergeParts, splitting, Val.truthy, optStrTruthy]
            · cases s0 with
              | empty => rw [subst_silent rfl hz]; exact silent_merge s2
              | vv x => exact absurd ⟨x, hs0⟩ hx1
          rw [hmp]
          rcases sh n s2 hs2 with rfl | ⟨s0, y, z, hs0, hr0, hz, rfl⟩
          · exact silent_true
          · refine true2 b c2 f d rest n s0 y z hc2 hf hd hs0 ?_ hr0 hz
            intro c1x y' hc1x hy'
            have h1 := klook_of_mem (S.dict1.lhs l1 rfl).1 hv
            rw [klook_of_mem (S.dict1.lhs l1 rfl).1 hc1x] at h1
            cases h1
            exact hx1 ⟨y', hy'⟩
    · have e1 := mapLVal_query rfl hf1
      subst e1
      have e2 : v'' = v1 := by
        rcases hM with e | ⟨hc, _⟩
        · exact e
        · simp at hc
      subst e2
      have h := S.holds1.conds _ hv
      cases h with
      | query hall => exact .query hall
  · rintro ⟨code, b⟩ d hm hc
    simp only at hc
    subst hc
    obtain ⟨w, hw, hfw⟩ := mapped_from C.hl2 (k4 _ _ hm)
    have := mapLVal_query rfl hfw
    subst this
    obtain ⟨u, hu, hfu⟩ := mapped_from C.hm2 hw
    have := mapLVal_query rfl hfu
    subst this
    exact .query (asks2 b d hu)
  · rintro ⟨code, b⟩ c2' c hm hc hmk
    simp only at hc
    subst hc
    obtain ⟨c2x, c2, ex, hc2, n2, sh⟩ := back2 b _ (k4 _ _ hm)
    cases ex
    obtain ⟨f, d, rest, d', hx, _, _⟩ := S.face2 hc2
    have hno : ∀ c1, ((⟨'=', b⟩ : Key), LVal.chunk c1) ∉ l1 := by
      intro c1 h1
      obtain ⟨v1, hv1, _⟩ := mapped_mem C.hl1 h1
      exact k2 _ _ rfl (List.mem_map.2 ⟨_, hv1, rfl⟩) hm
    refine .test hx.face hx.data (condHolds_iff.2 fun n s w hs hw => ?_) (S.jointSelf (Or.inr ⟨c2, hc2⟩) hx.face hx.data)
    rw [slotHas_iff hx.chunk.named] at hw
    subst hw
    have hsh : ∀ n s, (n, s) ∈ c2'.slots → ∃ y, s = .vv y := by
      intro n s hs
      rcases sh n s hs with h | ⟨_, _, z, _, _, _, h⟩
      · exact ⟨_, h⟩
      · exact ⟨z, h⟩
    rcases mkChunk_from S.types n2 hmk hsh hs with rfl | hs
    · trivial
    · rcases sh n s hs with rfl | ⟨s0, y, z, hs0, hy, hz, rfl⟩
      · exact silent_true
      · exact true2 b c2 f d rest n s0 y z hc2 hx.face hx.data hs0 (fun c1 y' h _ => hno c1 h) hy hz

/-! ## The actions of the compiled rule -/

/-- What a slot without negations says is given after substitution too. -/
theorem subst_gives {P : Py} (cf : P.H.CollisionFree) {st : MatchSt} (snd : SoundMatch st) {τ : String → Option Val} (hR : Respects τ st)
    (hτ : ∀ y v, τ y = some v → DataVal v) {x z : VarVal} {w : Val} (hneg : x.negvars = [] ∧ x.negvalues = [])
    (hv : x.values = .none ∨ ¬ NoRequirement x.values) (hg : GoodVal x.values)
    (h : substSlot P st.matched st.valued (.vv x) = .ok z) (hw : DataVal w) (ht : SlotTrue τ (.vv x) w) : GivesVal τ z w := by
  have o1 : P.ord [] = [] := by simpa using P.perm []
  have o2 : P.vord [] = [] := by simpa using P.vperm []
  obtain ⟨e1, e2, _⟩ := substSlot_cases h
  have t := subst_true cf snd hR hτ (s := .vv x) (by
    intro x' e; cases e; exact ⟨hg.1, hg.2, by rw [hneg.2]; simp⟩) h hw ht
  refine ⟨⟨by rw [e1, hneg.1]; simpa using o1, by rw [e2, hneg.1, hneg.2]; simpa using o2⟩, fun hn => ?_, t.1⟩
  rcases t.2.2.1 with hr | hr
  · exfalso
    rcases substSlot_var h with ⟨h1, _⟩ | ⟨u, v, _, _, hl, hz, _⟩
    · rw [h1] at hr hn
      rcases hv with hv | hv
      · exact hn hv
      · exact hv hr
    · rw [hz] at hr
      exact hard_required (snd.vals u v hl).2 hr
  · exact hr

theorem Spec.PlainAction.value {x : VarVal} (h : PlainAction x) : x.values = .none ∨ ¬ NoRequirement x.values := by
  rcases h.one with ⟨_, h⟩ | ⟨h, _⟩
  · exact Or.inr h
  · exact Or.inl h

theorem rename_neg {E : PyEnv} {name : String} {used : List String} {x y : VarVal} (h : renameSlot E name used (.vv x) = .ok y)
    (hx : x.negvars = [] ∧ x.negvalues = []) : y.negvars = [] ∧ y.negvalues = [] := by
  have o1 : E.ord [] = [] := by simpa using E.perm []
  rw [renameSlot_form h]
  have e : splitting (SlotOf.vv x) = x := rfl
  refine ⟨?_, hx.2⟩
  simp only [e, hx.1, List.map_nil, List.dedup_nil, o1]

theorem missing_none {d : Chunk} {n : String} (h : n ∉ d.slots.map Prod.fst) : matchingVal d n = .none := by
  rcases ha : alook n d.slots with _ | s
  · simp only [matchingVal, ha]
  · exact absurd (mem_keys_iff.2 ⟨s, ha⟩) h

/-- What the compiled rule gives to a slot that the second rule sets. -/
theorem RulesInRow.given2 (S : RulesInRow P reg l1 r1 l2 r2 name2 sv faces faces' σ1 σ2)
    (C : Compiling P reg l1 r1 l2 r2 name2 sv bufs lhs rhs) {x y z : VarVal} {w : Val} (hx : PlainAction x)
    (hy : renameSlot P.toPyEnv name2 C.sc.used (.vv x) = .ok y) (hz : substSlot P C.st.matched C.st.valued (.vv y) = .ok z)
    (hw : DataVal w) (hg : GivesVal σ2 x w) : GivesVal (jointAssign name2 l1 l2 faces σ1 σ2) z w := by
  have hv := renameSlot_values hy
  refine subst_gives S.cf (S.sound C) (S.respects C) S.jointData (rename_neg hy hx.plain) (by rw [hv]; exact hx.value) (by rw [hv]; exact hx.good)
    hz hw (rename_true hy (gives_true (gives_congr hg (fun u _ => ?_))))
  exact S.joint2 u

theorem dictR_uniq {r : List (Key × RVal)} (h : (r.map Prod.fst).Nodup) {k : Key} {v v' : RVal} (h1 : (k, v) ∈ r) (h2 : (k, v') ∈ r) : v' = v := by
  have e := klook_of_mem h h1
  rw [klook_of_mem h h2] at e
  cases e; rfl

/-- A buffer that only the second rule modifies. -/
theorem RulesInRow.only2 (S : RulesInRow P reg l1 r1 l2 r2 name2 sv faces faces' σ1 σ2)
    (C : Compiling P reg l1 r1 l2 r2 name2 sv bufs lhs rhs) {b : String} {c2 : Chunk}
    (hm : ((⟨'=', b⟩ : Key), RVal.chunk c2) ∈ r2) (hno : ∀ c, ((⟨'=', b⟩ : Key), RVal.chunk c) ∉ r1) :
    ∃ c', ((⟨'=', b⟩ : Key), RVal.chunk c') ∈ rhs ∧ ∀ f d rest d'', alook b faces = some f → f.data = d :: rest →
      Changed σ2 c2 d d'' → Changed (jointAssign name2 l1 l2 faces σ1 σ2) c' d d'' := by
  have snd := S.sound C
  obtain ⟨c', hc', ht, hsl, hex⟩ := C.act2 S.types S.good2 (fun b c n => S.mod2.full b c n) hm
  have hsv := C.hsv
  rw [C.sameSv S.good2 S.dict2 S.mod2.codes S.known] at hsv
  have hkn := knownSlot_none hsv (S.known.rest b hno)
  simp only [hkn] at hsl
  refine ⟨c', hc', fun f d rest d'' hf hd hch => ⟨hch.typ.trans ht.symm, hch.data, hch.names, ?_, ?_⟩⟩
  · intro n z0 w hz0 hw
    obtain ⟨s, y, z, hs, hy, hz, e⟩ := (hsl n _).1 hz0.1
    cases e
    cases s with
    | empty =>
      have := rename_empty hy
      subst this
      exact absurd hz0.2 (subst_silent rfl hz ▸ silent_speaks)
    | vv x =>
      have hpa := S.mod2.acts b c2 n x hm hs
      exact S.given2 C hpa hy hz
        (dataAt hch.data hch.names (S.full.acts b c2 f d rest (List.mem_append_right _ hm) hf hd) hs hw)
        (hch.given n x w ⟨hs, hpa.says.speaks⟩ hw)
  · intro n w w' hnot
    refine hch.kept n w w' (fun x hx => ?_)
    obtain ⟨y, z, hy, hz⟩ := hex n _ hx.1
    have hpa := S.mod2.acts b c2 n x hm hx.1
    have hye : y.values ≠ .empty := by rw [renameSlot_values hy]; exact hpa.good.2
    exact hnot z ⟨(hsl n _).2 ⟨_, y, z, hx.1, hy, hz, rfl⟩, (subst_says snd hz hye (rename_says hy hpa.says)).speaks⟩

/-- A buffer that only the first rule modifies. -/
theorem RulesInRow.only1 (S : RulesInRow P reg l1 r1 l2 r2 name2 sv faces faces' σ1 σ2)
    (C : Compiling P reg l1 r1 l2 r2 name2 sv bufs lhs rhs) {b : String} {c : Chunk}
    (hm : ((⟨'=', b⟩ : Key), RVal.chunk c) ∈ r1) (hno : ∀ c2, ((⟨'=', b⟩ : Key), RVal.chunk c2) ∉ r2) :
    ∃ c', ((⟨'=', b⟩ : Key), RVal.chunk c') ∈ rhs ∧ ∀ f d rest d', alook b faces = some f → f.data = d :: rest →
      Changed σ1 c d d' → Changed (jointAssign name2 l1 l2 faces σ1 σ2) c' d d' := by
  have snd := S.sound C
  obtain ⟨c', hc', ht, hsl, hex⟩ := C.act1 S.types S.good1 S.good2 S.dict1 (fun b c n => S.mod1.full b c n) S.mod1.only S.mod2.only
    (C.noRetrieval S.known) hm hno
  refine ⟨c', hc', fun f d rest d' hf hd hch => ⟨hch.typ.trans ht.symm, hch.data, hch.names, ?_, ?_⟩⟩
  · intro n z0 w hz0 hw
    obtain ⟨s, z, hs, hz, e⟩ := (hsl n _).1 hz0.1
    cases e
    cases s with
    | empty => exact absurd hz0.2 (subst_silent rfl hz ▸ silent_speaks)
    | vv x =>
      have hpa := S.mod1.acts b c n x hm hs
      refine subst_gives S.cf snd (S.respects C) S.jointData hpa.plain hpa.value hpa.good hz
        (dataAt hch.data hch.names (S.full.acts b c f d rest (List.mem_append_left _ hm) hf hd) hs hw)
        (gives_true (gives_congr (hch.given n x w ⟨hs, hpa.says.speaks⟩ hw) (fun y hy => ?_)))
      exact S.joint1 (Or.inl (S.mod1.bound b c n x y hm hs hy))
  · intro n w w' hnot
    refine hch.kept n w w' (fun x hx => ?_)
    obtain ⟨z, hz⟩ := hex n _ hx.1
    have hpa := S.mod1.acts b c n x hm hx.1
    exact hnot z ⟨(hsl n _).2 ⟨_, z, hx.1, hz, rfl⟩, (subst_says snd hz hpa.good.2 hpa.says).speaks⟩

/-- A buffer that both rules modify. -/
theorem RulesInRow.both (S : RulesInRow P reg l1 r1 l2 r2 name2 sv faces faces' σ1 σ2)
    (C : Compiling P reg l1 r1 l2 r2 name2 sv bufs lhs rhs) {b : String} {c c2 : Chunk}
    (hm : ((⟨'=', b⟩ : Key), RVal.chunk c) ∈ r1) (hm2 : ((⟨'=', b⟩ : Key), RVal.chunk c2) ∈ r2) :
    ∃ c', ((⟨'=', b⟩ : Key), RVal.chunk c') ∈ rhs ∧ ∀ f d rest d' d'', alook b faces = some f → f.data = d :: rest →
      alook b faces' = some { f with data := d' :: rest } →
      Changed σ1 c d d' → Changed σ2 c2 d' d'' → Changed (jointAssign name2 l1 l2 faces σ1 σ2) c' d d'' := by
  have snd := S.sound C
  obtain ⟨c', hc', ht, hsl, hex⟩ := C.act2 S.types S.good2 (fun b c n => S.mod2.full b c n) hm2
  have hsv := C.hsv
  rw [C.sameSv S.good2 S.dict2 S.mod2.codes S.known] at hsv
  obtain ⟨dk, hdk, hK⟩ := S.known.acted b c hm
  obtain ⟨c0, e, hk2⟩ := S.good2.rhs _ _ hm2 (by simp)
  cases e
  refine ⟨c', hc', fun f d rest d' d'' hf hd hf' hch hch2 => ?_⟩
  have hdd := S.full.data b f d rest hf hd
  obtain ⟨f0, d0, hx, hchx⟩ := S.across hf' rfl
  have e0 := hx.face
  rw [hf] at e0
  cases e0
  have e0 := hx.data
  rw [hd] at e0
  cases e0
  have names : ∀ n, n ∈ d''.slots.map Prod.fst ↔ n ∈ d.slots.map Prod.fst := fun n => (hch2.names n).trans (hch.names n)
  have speaks2 : ∀ n x, (n, SlotOf.vv x) ∈ c2.slots → ∃ z, MentionsSlot c' n z := by
    intro n x hx
    obtain ⟨y, z, hy, hz⟩ := hex n _ hx
    have hpa := S.mod2.acts b c2 n x hm2 hx
    have hye : y.values ≠ .empty := by rw [renameSlot_values hy]; exact hpa.good.2
    have hzs := subst_says snd hz hye (rename_says hy hpa.says)
    refine ⟨z, (hsl n _).2 ⟨_, y, z, hx, hy, hz, ?_⟩, hzs.speaks⟩
    rcases knownSlot C.sv'' b n with _ | t
    · rfl
    · simp only [hzs.merge]
  refine ⟨hch2.typ.trans ht.symm, hch2.data, names, ?_, ?_⟩
  · intro n z0 w hz0 hw
    obtain ⟨s, y, z, hs, hy, hz, e⟩ := (hsl n _).1 hz0.1
    have hn : n ∈ d.slots.map Prod.fst := by
      obtain ⟨s', hs'⟩ := S.full.acts b c2 f d rest (List.mem_append_right _ hm2) hf hd n s hs
      exact List.mem_map.2 ⟨_, hs', rfl⟩
    have hw' := hw
    rw [slotHas_iff hch2.data.named] at hw'
    have hdw : DataVal w := hw' ▸ matchingVal_dataVal hch2.data ((names n).2 hn)
    cases s with
    | vv x =>
      have hpa := S.mod2.acts b c2 n x hm2 hs
      have hye : y.values ≠ .empty := by rw [renameSlot_values hy]; exact hpa.good.2
      have hzs := subst_says snd hz hye (rename_says hy hpa.says)
      have : z0 = z := by
        rcases hk : knownSlot C.sv'' b n with _ | t
        · rw [hk] at e; cases e; rfl
        · rw [hk] at e
          simp only [hzs.merge] at e
          cases e; rfl
      subst this
      exact S.given2 C hpa hy hz hdw (hch2.given n x w ⟨hs, hpa.says.speaks⟩ hw)
    | empty =>
      have := rename_empty hy
      subst this
      have := subst_silent rfl hz
      subst this
      have nokeep : ∀ x, ¬ MentionsSlot c2 n x := by
        intro x hx
        have h1 := alook_of_mem hk2.1 hx.1
        rw [alook_of_mem hk2.1 hs] at h1
        cases h1
      have kept2 := hch2.kept n _ w nokeep ((slotHas_iff hch.data.named _ _).2 rfl) hw
      rcases hkd : alook n dk with _ | t0
      · rw [(knownSlot_dict hsv hdk n).1 hkd] at e
        cases e
        exact absurd hz0.2 silent_speaks
      · obtain ⟨u, hu, hkn⟩ := (knownSlot_dict hsv hdk n).2 _ hkd
        rw [hkn] at e
        simp only [silent_merge] at e
        cases e
        cases t0 with
        | empty => exact absurd hz0.2 (subst_silent rfl hu ▸ silent_speaks)
        | vv y =>
          obtain ⟨_, htrue, hgood, _⟩ := S.knownTrue hx hchx hdk hkd
          have ht' := slotTrue_same S.jointData (fun x e => by cases e; exact hgood.1)
            (matchingVal_dataVal hch.data ((hch.names n).2 hn)) hdw kept2 htrue
          have hyy : (y.negvars = [] ∧ y.negvalues = []) ∧ (y.values = .none ∨ ¬ NoRequirement y.values) := by
            by_cases hset : ∃ x, (n, SlotOf.vv x) ∈ c.slots
            · obtain ⟨x, hxm⟩ := hset
              rw [hK.2.1 n x hxm] at hkd
              have e : x = y := by cases hkd; rfl
              subst e
              have hpa := S.mod1.acts b c n x hm hxm
              exact ⟨hpa.plain, hpa.value⟩
            · have hno : ∀ x, (n, SlotOf.vv x) ∉ c.slots := fun x h => hset ⟨x, h⟩
              obtain ⟨q1, q2⟩ := hK.2.2 n hno
              by_cases ht : ∃ c1, ((⟨'=', b⟩ : Key), LVal.chunk c1) ∈ l1
              · obtain ⟨c1, hc1⟩ := ht
                have hy1 := alook_mem ((q1 c1 hc1).symm.trans hkd)
                exact ⟨S.fit.kept b c c2 c1 n y hm hm2 hc1 hy1 hno hs, (S.mod1.tests b c1 n y hc1 hy1).value⟩
              · rw [q2 (fun c1 h => ht ⟨c1, h⟩)] at hkd
                cases hkd
          exact subst_gives S.cf snd (S.respects C) S.jointData hyy.1 hyy.2 hgood hu hdw ht'
  · intro n w w' hnot hw hw'
    rw [slotHas_iff hdd.named] at hw
    rw [slotHas_iff hch2.data.named] at hw'
    by_cases hn : n ∈ d.slots.map Prod.fst
    · have no2 : ∀ x, (n, SlotOf.vv x) ∉ c2.slots := by
        intro x h
        obtain ⟨z, hz⟩ := speaks2 n x h
        exact hnot z hz
      have no1 : ∀ x, (n, SlotOf.vv x) ∉ c.slots := by
        intro x h
        have hpa := S.mod1.acts b c n x hm h
        obtain ⟨⟨n', s⟩, hs, e⟩ := List.mem_map.1 (S.fit.acts b c c2 hm hm2 n (List.mem_map.2 ⟨_, h, rfl⟩))
        simp only at e
        subst e
        cases s with
        | vv x2 => exact no2 x2 hs
        | empty =>
          obtain ⟨y, z, hy, hz⟩ := hex _ _ hs
          have := rename_empty hy
          subst this
          have := subst_silent rfl hz
          subst this
          obtain ⟨u, hu, hkn⟩ := (knownSlot_dict hsv hdk n').2 _ (hK.2.1 n' x h)
          refine hnot u ⟨(hsl n' _).2 ⟨_, _, _, hs, hy, hz, ?_⟩, (subst_says snd hu hpa.good.2 hpa.says).speaks⟩
          rw [hkn]
          simp only [silent_merge]
          rfl
      have k1 := hch.kept n _ _ (fun x h => no1 x h.1) ((slotHas_iff hdd.named _ _).2 rfl) ((slotHas_iff hch.data.named _ _).2 rfl)
      have k2 := hch2.kept n _ _ (fun x h => no2 x h.1) ((slotHas_iff hch.data.named _ _).2 rfl) ((slotHas_iff hch2.data.named _ _).2 rfl)
      rw [hw, hw']
      exact data_trans (matchingVal_dataVal hdd hn) (matchingVal_dataVal hch.data ((hch.names n).2 hn))
        (matchingVal_dataVal hch2.data ((names n).2 hn)) k1 k2
    · rw [hw, hw', missing_none hn, missing_none (fun h => hn ((names n).1 h))]
      trivial

/-- The compiled rule turns the first buffers into the last ones. -/
theorem RulesInRow.fires (S : RulesInRow P reg l1 r1 l2 r2 name2 sv faces faces' σ1 σ2)
    (C : Compiling P reg l1 r1 l2 r2 name2 sv bufs lhs rhs) (hnd : (rhs.map Prod.fst).Nodup) {faces'' : Faces}
    (hM : Modified σ2 r2 faces' faces'') : Fires DataVal lhs rhs faces faces'' := by
  refine ⟨_, S.lhsHolds C, ⟨?_, ?_⟩⟩
  · intro b c' hc'
    by_cases h2 : ∃ c2, ((⟨'=', b⟩ : Key), RVal.chunk c2) ∈ r2
    · obtain ⟨c2, hc2⟩ := h2
      obtain ⟨f', d', rest, d'', hf', hd', hf'', hch2⟩ := hM.acted b c2 hc2
      by_cases h1 : ∃ c, ((⟨'=', b⟩ : Key), RVal.chunk c) ∈ r1
      · obtain ⟨c, hc⟩ := h1
        obtain ⟨f, d, rest1, d1, hf, hd, hf1, hch⟩ := S.step1.acted b c hc
        rw [hf'] at hf1
        cases hf1
        cases hd'
        obtain ⟨e, he, hall⟩ := S.both C hc hc2
        cases dictR_uniq hnd hc' he
        exact ⟨f, d, rest, d'', hf, hd, hf'', hall f d rest d' d'' hf hd hf' hch hch2⟩
      · have hno : ∀ c, ((⟨'=', b⟩ : Key), RVal.chunk c) ∉ r1 := fun c h => h1 ⟨c, h⟩
        rw [S.step1.rest b hno] at hf'
        obtain ⟨e, he, hall⟩ := S.only2 C hc2 hno
        cases dictR_uniq hnd hc' he
        exact ⟨f', d', rest, d'', hf', hd', hf'', hall f' d' rest d'' hf' hd' hch2⟩
    · have hno : ∀ c, ((⟨'=', b⟩ : Key), RVal.chunk c) ∉ r2 := fun c h => h2 ⟨c, h⟩
      rcases C.acts_only S.good1 S.good2 hc' with ⟨c, hc⟩ | h
      · obtain ⟨f, d, rest, d', hf, hd, hf', hch⟩ := S.step1.acted b c hc
        obtain ⟨e, he, hall⟩ := S.only1 C hc hno
        cases dictR_uniq hnd hc' he
        exact ⟨f, d, rest, d', hf, hd, by rw [hM.rest b hno]; exact hf', hall f d rest d' hf hd hch⟩
      · exact absurd h h2
  · intro b hb
    have hno2 : ∀ c, ((⟨'=', b⟩ : Key), RVal.chunk c) ∉ r2 := by
      intro c h
      obtain ⟨c', hc', _⟩ := C.act2 S.types S.good2 (fun b c n => S.mod2.full b c n) h
      exact hb c' hc'
    have hno1 : ∀ c, ((⟨'=', b⟩ : Key), RVal.chunk c) ∉ r1 := by
      intro c h
      obtain ⟨c', hc', _⟩ := S.only1 C h hno2
      exact hb c' hc'
    rw [hM.rest b hno2, S.step1.rest b hno1]

end

end Verif
