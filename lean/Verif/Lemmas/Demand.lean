import Verif.Spec.Demand
import Verif.Lemmas.Compile
import Verif.Lemmas.Assoc
import Verif.Lemmas.BoundVars
import Verif.Lemmas.ChunkType
/-!
# What compiled rules demand
-/
namespace Verif
open Spec

/-! ## Slots under an assignment -/

/-- The slot `s` of a pattern is true of the value `w`. -/
def SlotTrue (σ : String → Option Val) (s : Slot) (w : Val) : Prop :=
  match s with
  | .empty => True
  | .vv x => (∀ y, x.vars = some y → y ≠ "" → ∃ v, σ y = some v ∧ SameVal v w) ∧
      (∀ y v, y ∈ x.negvars → σ y = some v → ¬ SameVal v w) ∧ Accepts x.values w ∧ ∀ v ∈ x.negvalues, ¬ Forbids v w

theorem condHolds_iff {p d : Chunk} {σ : String → Option Val} :
    CondHolds p d σ ↔ ∀ n s w, (n, s) ∈ p.slots → SlotHas d n w → SlotTrue σ s w := by
  constructor
  · intro h n s w hm hw
    cases s with
    | empty => trivial
    | vv x => exact ⟨fun y hy hne => h.pos n x y w hm hy hne hw, fun y v hy hv => h.neg n x y w v hm hy hw hv,
        (h.lit n x w hm hw).1, (h.lit n x w hm hw).2⟩
  · intro h
    refine ⟨fun n x y w hm hy hne hw => (h n _ w hm hw).1 y hy hne, fun n x y w v hm hy hw hv => (h n _ w hm hw).2.1 y v hy hv,
      fun n x w hm hw => (h n _ w hm hw).2.2⟩

/-- A value that requires something. -/
def Hard (v : Val) : Prop := v.truthy = true ∧ v ≠ .empty

theorem hard_required {v : Val} (h : Hard v) : ¬ NoRequirement v := by
  obtain ⟨h1, h2⟩ := h
  cases v with
  | none => simp [Val.truthy] at h1
  | empty => exact absurd rfl h2
  | str s => simpa [Val.truthy, NoRequirement] using h1
  | chunk t sl => simpa [Val.truthy, NoRequirement] using h1

theorem hard_same {v a b : Val} (h : Hard v) (ha : SameVal v a) (hb : SameVal v b) : SameVal a b := by
  obtain ⟨h1, h2⟩ := h
  cases v <;> cases a <;> cases b <;> simp_all [SameVal, Val.truthy]

theorem hard_forbids {v a w : Val} (h : Hard v) (ha : SameVal v a) (hw : SameVal a w) : Forbids v w := by
  obtain ⟨h1, h2⟩ := h
  cases v <;> cases a <;> cases w <;> simp_all [SameVal, Val.truthy, Forbids, Noneish]

theorem hard_swap {v u w : Val} (hv : Hard v) (hu : Hard u) (h : SameVal v u) (hw : SameVal u w) : SameVal v w := by
  obtain ⟨h1, h2⟩ := hv
  obtain ⟨h3, h4⟩ := hu
  cases v <;> cases u <;> cases w <;> simp_all [SameVal, Val.truthy]

theorem forbids_content {a b w : Val} (h : content a = content b) (hf : Forbids a w) : Forbids b w := by
  cases a <;> cases b <;> cases w <;> simp_all [content, Forbids, SameVal, Noneish]

theorem not_truthy_required {v : Val} (h : v.truthy = false) : NoRequirement v := by
  cases v <;> simp_all [Val.truthy, NoRequirement]

open Classical in
/-- The assignment for the variables before substitution: a replaced variable stands for its value (for the value of a buffer that is
the same, if there is one), other variables stand for what they were renamed to. -/
noncomputable def pull (D : Val → Prop) (m : List (String × String)) (val : List (String × Val)) (σ : String → Option Val) :
    String → Option Val := fun y =>
  match alook y val with
  | some v => if h : ∃ w, D w ∧ SameVal v w then some h.choose else Option.none
  | Option.none => σ (newVar m y)

theorem pull_data {D : Val → Prop} {m : List (String × String)} {val : List (String × Val)} {σ : String → Option Val}
    (hσ : ∀ y v, σ y = some v → D v) (y : String) (v : Val) (h : pull D m val σ y = some v) : D v := by
  unfold pull at h
  split at h
  · split at h
    · rename_i hw
      cases h
      exact hw.choose_spec.1
    · cases h
  · exact hσ _ _ h

theorem pull_pos {D : Val → Prop} {m : List (String × String)} {val : List (String × Val)} {σ : String → Option Val} {y : String}
    {v w : Val} (hy : alook y val = some v) (hv : Hard v) (hD : D w) (hs : SameVal v w) :
    ∃ v', pull D m val σ y = some v' ∧ SameVal v' w := by
  have hex : ∃ w, D w ∧ SameVal v w := ⟨w, hD, hs⟩
  refine ⟨hex.choose, ?_, hard_same hv hex.choose_spec.2 hs⟩
  simp only [pull, hy, dif_pos hex]

theorem pull_neg {D : Val → Prop} {m : List (String × String)} {val : List (String × Val)} {σ : String → Option Val} {y : String}
    {v v' w : Val} (hy : alook y val = some v) (hv : Hard v) (hp : pull D m val σ y = some v') (hf : ¬ Forbids v w) :
    ¬ SameVal v' w := by
  simp only [pull, hy] at hp
  split at hp
  · rename_i hw
    cases hp
    exact fun h => hf (hard_forbids hv hw.choose_spec.2 h)
  · cases hp

theorem pull_free {D : Val → Prop} {m : List (String × String)} {val : List (String × Val)} {σ : String → Option Val} {y : String}
    (hy : alook y val = Option.none) : pull D m val σ y = σ (newVar m y) := by
  simp only [pull, hy]

/-- The values of a slot. -/
def PlainSlotVals (s : Slot) : Prop := ∀ x, s = .vv x → PlainVal x.values ∧ x.values ≠ .empty ∧ ∀ v ∈ x.negvalues, PlainVal v

theorem newVar_ne {m : List (String × String)} (hm : ∀ n v, alook n m = some v → v ≠ "") {z : String} (hz : z ≠ "") :
    newVar m z ≠ "" := by
  unfold newVar
  rcases h : alook z m with _ | v
  · exact hz
  · exact hm z v h

/-- A slot that is true after substitution is true before. -/
theorem slotTrue_subst {P : Py} (cf : P.H.CollisionFree) {D : Val → Prop} {m : List (String × String)} {val : List (String × Val)}
    {σ : String → Option Val} {s : Slot} {y : VarVal} {w : Val} (hmat : ∀ n v, alook n m = some v → v ≠ "")
    (hval : ∀ n v, alook n val = some v → PlainVal v ∧ Hard v) (hs : PlainSlotVals s) (h : substSlot P m val s = .ok y) (ht : SlotTrue σ (.vv y) w) (hw : D w) :
    SlotTrue (pull D m val σ) s w := by
  cases s with
  | empty => trivial
  | vv x =>
    obtain ⟨hpx, hex, hpn⟩ := hs x rfl
    obtain ⟨t1, t2, t3, t4⟩ := ht
    -- the negated parts are the same in all cases
    have hneg : y.negvars = P.ord ((x.negvars.filter (fun z => (alook z val).isNone)).map (newVar m)).dedup ∧
        y.negvalues = P.vord ((x.negvars.filterMap (fun z => alook z val)).foldl (addVal P.H) (x.negvalues.foldl (addVal P.H) [])) := by
      simp only [substSlot, splitting] at h
      by_cases hv : optStrTruthy x.vars = true
      · simp only [hv, if_true] at h
        rcases hl : alook (x.vars.getD "") val with _ | v
        · rw [hl] at h; cases h; exact ⟨rfl, rfl⟩
        · rw [hl] at h
          simp only at h
          by_cases hxt : x.values.truthy = true
          · simp only [hxt, if_true] at h
            by_cases he : pyEq P.H v x.values = true
            · simp only [he, if_true] at h; cases h; exact ⟨rfl, rfl⟩
            · simp only [he, if_false, Bool.false_eq_true] at h; cases h
          · simp only [hxt, if_false, Bool.false_eq_true] at h; cases h; exact ⟨rfl, rfl⟩
      · simp only [hv, if_false, Bool.false_eq_true] at h; cases h; exact ⟨rfl, rfl⟩
    have hpl : ∀ v ∈ x.negvars.filterMap (fun z => alook z val), PlainVal v := by
      intro v hv
      obtain ⟨z, _, hz⟩ := List.mem_filterMap.1 hv
      exact (hval z v hz).1
    obtain ⟨f1, f2, f3, f4⟩ := addVals_facts cf x.negvalues [] (by simp) hpn
    obtain ⟨g1, g2, g3, g4⟩ := addVals_facts cf (x.negvars.filterMap (fun z => alook z val)) (x.negvalues.foldl (addVal P.H) []) f4 hpl
    have hnv : ∀ v ∈ x.negvalues, ¬ Forbids v w := by
      intro v hv hf
      obtain ⟨u, hu, hc⟩ := f3 v hv
      exact t4 u (by rw [hneg.2, (P.vperm _).mem_iff]; exact g2 u hu) (forbids_content hc.symm hf)
    have hnr : ∀ z v, z ∈ x.negvars → pull D m val σ z = some v → ¬ SameVal v w := by
      intro z v hz hp
      rcases hl : alook z val with _ | u
      · rw [pull_free hl] at hp
        refine t2 _ v ?_ hp
        rw [hneg.1, (P.perm _).mem_iff, List.mem_dedup, List.mem_map]
        exact ⟨z, List.mem_filter.2 ⟨hz, by simp [hl]⟩, rfl⟩
      · obtain ⟨hpu, hhu⟩ := hval z u hl
        refine pull_neg hl hhu hp (fun hf => ?_)
        obtain ⟨u', hu', hc⟩ := g3 u (List.mem_filterMap.2 ⟨z, hz, hl⟩)
        exact t4 u' (by rw [hneg.2, (P.vperm _).mem_iff]; exact hu') (forbids_content hc.symm hf)
    refine ⟨?_, hnr, ?_, hnv⟩
    · intro z hz hne
      have htr : optStrTruthy x.vars = true := by simp [optStrTruthy, hz, hne]
      simp only [substSlot, splitting, htr, if_true] at h
      simp only [hz, Option.getD_some] at h
      rcases hl : alook z val with _ | v
      · rw [hl] at h
        cases h
        obtain ⟨v, hv, hsame⟩ := t1 (newVar m z) rfl (newVar_ne hmat hne)
        exact ⟨v, by rw [pull_free hl]; exact hv, hsame⟩
      · obtain ⟨hpv, hhv⟩ := hval z v hl
        rw [hl] at h
        simp only at h
        by_cases hxt : x.values.truthy = true
        · simp only [hxt, if_true] at h
          by_cases heq : pyEq P.H v x.values = true
          · simp only [heq, if_true] at h
            cases h
            have hsx : SameVal v x.values := (pyEq_iff cf v x.values hpv hpx).1 heq
            rcases t3 with hno | hsame
            · exact absurd hno (hard_required ⟨hxt, hex⟩)
            · exact pull_pos hl hhv hw (hard_swap hhv ⟨hxt, hex⟩ hsx hsame)
          · simp only [heq, if_false, Bool.false_eq_true] at h; cases h
        · simp only [hxt, if_false, Bool.false_eq_true] at h
          cases h
          rcases t3 with hno | hsame
          · exact absurd hno (hard_required hhv)
          · exact pull_pos hl hhv hw hsame
    · simp only [substSlot, splitting] at h
      by_cases hxt : x.values.truthy = true
      · have : y.values = x.values := by
          by_cases hv : optStrTruthy x.vars = true
          · simp only [hv, if_true] at h
            rcases hl : alook (x.vars.getD "") val with _ | v
            · rw [hl] at h; cases h; rfl
            · rw [hl] at h
              simp only at h
              simp only [hxt, if_true] at h
              by_cases he : pyEq P.H v x.values = true
              · simp only [he, if_true] at h; cases h; rfl
              · simp only [he, if_false, Bool.false_eq_true] at h; cases h
          · simp only [hv, if_false, Bool.false_eq_true] at h; cases h; rfl
        rw [← this]; exact t3
      · exact Or.inl (not_truthy_required (by simpa using hxt))

/-! ## Chunks made from slots -/

theorem mkChunk_ok {E : PyEnv} {reg : Reg} (hr : RegOk E reg) {typ : String} {d : List (String × SlotArg)}
    (hd : (d.map Prod.fst).Nodup) {c : Chunk} (h : mkChunk E reg typ d = .ok c) :
    c.typ = typ ∧ Named c ∧ ∃ vals, convertAll E d = .ok vals ∧ ∀ n, alook n c.slots =
      (alook n (vals.map (fun p => (p.1, SlotOf.vv p.2)))).or (if n ∈ (alook typ reg).getD [] then some .empty else Option.none) := by
  unfold mkChunk at h
  rcases hv : convertAll E d with e | vals
  · simp only [createChunk, hv] at h; cases h
  · rcases createChunk_cases hr (typ := typ) hd hv with ⟨_, sl, reg', hcr, hs, hal, _⟩ | ⟨_, e, hcr, _⟩
    · rw [hcr] at h
      cases h
      exact ⟨rfl, hs.nodup, vals, rfl, hal⟩
    · rw [hcr] at h; cases h

theorem convertAll_vv {E : PyEnv} (d : List (String × VarVal)) :
    convertAll E (d.map (fun p => (p.1, SlotArg.vv p.2))) = .ok d := by
  induction d with
  | nil => rfl
  | cons x r ih => simp [convertAll, SlotArg.convert, ih]

/-- A chunk made of given parts. -/
theorem mkChunk_parts {E : PyEnv} {reg : Reg} (hr : RegOk E reg) {typ : String} {d : List (String × VarVal)}
    (hd : (d.map Prod.fst).Nodup) {c : Chunk} (h : mkChunk E reg typ (d.map (fun p => (p.1, SlotArg.vv p.2))) = .ok c) :
    c.typ = typ ∧ Named c ∧ (∀ n y, (n, y) ∈ d → (n, SlotOf.vv y) ∈ c.slots) ∧
    (∀ n s, (n, s) ∈ c.slots → s = .empty ∨ ∃ y, (n, y) ∈ d ∧ s = .vv y) ∧
    (∀ n, n ∈ (alook typ reg).getD [] → n ∈ c.slots.map Prod.fst) := by
  have hdk : (d.map (fun p => (p.1, SlotArg.vv p.2))).map Prod.fst = d.map Prod.fst := by rw [List.map_map]; rfl
  have hvk : (d.map (fun p => (p.1, (SlotOf.vv p.2 : Slot)))).map Prod.fst = d.map Prod.fst := by rw [List.map_map]; rfl
  obtain ⟨ht, hn, vals, hv, hal⟩ := mkChunk_ok hr (by rw [hdk]; exact hd) h
  rw [convertAll_vv] at hv
  cases hv
  refine ⟨ht, hn, ?_, ?_, ?_⟩
  · intro n y hy
    have hm : (n, (SlotOf.vv y : Slot)) ∈ d.map (fun p => (p.1, (SlotOf.vv p.2 : Slot))) := List.mem_map.2 ⟨_, hy, rfl⟩
    refine alook_mem ?_
    rw [hal, alook_of_mem (by rw [hvk]; exact hd) hm]
    rfl
  · intro n s hms
    have := alook_of_mem hn hms
    rw [hal] at this
    rcases ha : alook n (d.map (fun p => (p.1, (SlotOf.vv p.2 : Slot)))) with _ | v
    · rw [ha] at this
      simp only [Option.none_or] at this
      split at this
      · cases this; exact Or.inl rfl
      · cases this
    · rw [ha] at this
      cases this
      obtain ⟨⟨n', y⟩, hy, he⟩ := List.mem_map.1 (alook_mem ha)
      cases he
      exact Or.inr ⟨y, hy, rfl⟩
  · intro n hnf
    rw [mem_keys_iff, hal]
    rcases ha : alook n (d.map (fun p => (p.1, (SlotOf.vv p.2 : Slot)))) with _ | v
    · exact ⟨.empty, by rw [ha, if_pos hnf]; rfl⟩
    · exact ⟨v, by rw [ha]; rfl⟩

theorem mapSlots_ok {f : Slot → Except PyErr VarVal} : ∀ {l : Slots} {d : List (String × VarVal)}, mapSlots f l = .ok d →
    List.Forall₂ (fun p q => q.1 = p.1 ∧ f p.2 = .ok q.2) l d
  | [], d, h => by simp only [mapSlots, Except.ok.injEq] at h; subst h; exact .nil
  | (n, s) :: r, d, h => by
    simp only [mapSlots] at h
    rcases hf : f s with e | x
    · rw [hf] at h; cases h
    · rw [hf] at h
      rcases hm : mapSlots f r with e | xs
      · rw [hm] at h; cases h
      · rw [hm] at h
        cases h
        exact .cons ⟨rfl, hf⟩ (mapSlots_ok hm)

theorem forall₂_names {α β : Type} {R : String × α → String × β → Prop} {l : List (String × α)} {l' : List (String × β)}
    (h : List.Forall₂ R l l') (hR : ∀ p q, R p q → q.1 = p.1) : l'.map Prod.fst = l.map Prod.fst := by
  induction h with
  | nil => rfl
  | cons h _ ih => simp [hR _ _ h, ih]

theorem forall₂_left {α β : Type} {R : α → β → Prop} {l : List α} {l' : List β} (h : List.Forall₂ R l l') {a : α}
    (ha : a ∈ l) : ∃ b ∈ l', R a b := by
  induction h with
  | nil => simp at ha
  | cons h _ ih =>
    rcases List.mem_cons.1 ha with rfl | ha
    · exact ⟨_, List.mem_cons_self, h⟩
    · obtain ⟨b, hb, hr⟩ := ih ha
      exact ⟨b, List.mem_cons_of_mem _ hb, hr⟩

/-- What a chunk is like whose slots were changed one by one. -/
theorem mapChunk_ok {E : PyEnv} {reg : Reg} (hr : RegOk E reg) {f : Slot → Except PyErr VarVal} {c c' : Chunk} (hc : Named c)
    (h : mapChunk E reg f c = .ok c') :
    c'.typ = c.typ ∧ Named c' ∧ (∀ n s, (n, s) ∈ c.slots → ∃ y, f s = .ok y ∧ (n, SlotOf.vv y) ∈ c'.slots) ∧
    (∀ n s', (n, s') ∈ c'.slots → s' = .empty ∨ ∃ s y, (n, s) ∈ c.slots ∧ f s = .ok y ∧ s' = .vv y) ∧
    (∀ n, n ∈ (alook c.typ reg).getD [] → n ∈ c'.slots.map Prod.fst) := by
  unfold mapChunk at h
  rcases hm : mapSlots f c.slots with e | d
  · rw [hm] at h; cases h
  · rw [hm] at h
    have h2 := mapSlots_ok hm
    have hk : d.map Prod.fst = c.slots.map Prod.fst := forall₂_names h2 (fun _ _ h => h.1)
    obtain ⟨ht, hn, h3, h4, h5⟩ := mkChunk_parts hr (by rw [hk]; exact hc) h
    refine ⟨ht, hn, ?_, ?_, h5⟩
    · intro n s hms
      obtain ⟨⟨n', y⟩, hy, hn', hf⟩ := forall₂_left h2 hms
      simp only at hn' hf
      subst hn'
      exact ⟨y, hf, h3 _ _ hy⟩
    · intro n s' hms
      rcases h4 n s' hms with he | ⟨y, hy, he⟩
      · exact Or.inl he
      · obtain ⟨⟨n', s⟩, hs, hn', hf⟩ := forall₂_mem_right h2 hy
        simp only at hn' hf
        subst hn'
        exact Or.inr ⟨s, y, hs, hf, he⟩

theorem mergeSlots_ok {s1 : Slots} : ∀ {s2 : Slots} {d : List (String × SlotArg)}, mergeSlots s1 s2 = .ok d →
    ∃ b : List (String × VarVal), d = b.map (fun p => (p.1, SlotArg.vv p.2)) ∧
      List.Forall₂ (fun p q => q.1 = p.1 ∧ ∃ t, alook p.1 s1 = some t ∧ q.2 = mergeParts t p.2) s2 b
  | [], d, h => by simp only [mergeSlots, Except.ok.injEq] at h; subst h; exact ⟨[], rfl, .nil⟩
  | (n, s) :: r, d, h => by
    simp only [mergeSlots] at h
    rcases hf : alook n s1 with _ | t
    · rw [hf] at h; cases h
    · rw [hf] at h
      rcases hm : mergeSlots s1 r with e | xs
      · rw [hm] at h; cases h
      · rw [hm] at h
        cases h
        obtain ⟨b, rfl, hb⟩ := mergeSlots_ok hm
        exact ⟨(n, mergeParts t s) :: b, rfl, .cons ⟨rfl, t, hf, rfl⟩ hb⟩

/-- A merged slot demands what the first slot demands. -/
theorem slotTrue_merge {σ : String → Option Val} {t s : Slot} {w : Val} (h : SlotTrue σ (.vv (mergeParts t s)) w) :
    SlotTrue σ t w := by
  cases t with
  | empty => trivial
  | vv x =>
    by_cases hb : (x.values.truthy || optStrTruthy x.vars || !x.negvalues.isEmpty || !x.negvars.isEmpty) = true
    · have : mergeParts (.vv x) s = x := by simp only [mergeParts, splitting, hb, if_true]
      rw [this] at h
      exact h
    · simp only [Bool.or_eq_true, not_or, Bool.not_eq_true, Bool.not_eq_eq_eq_not, Bool.not_true, Bool.not_false, List.isEmpty_iff] at hb
      obtain ⟨⟨⟨h1, h2⟩, h3⟩, h4⟩ := hb
      refine ⟨fun y hy hne => ?_, fun y v hy => ?_, Or.inl (not_truthy_required h1), fun v hv => ?_⟩
      · simp [optStrTruthy, hy, hne] at h2
      · simp_all
      · simp_all

/-- The merged chunk demands what the first chunk demands, if it has all its slots. -/
theorem condHolds_merge {E : PyEnv} {reg : Reg} (hr : RegOk E reg) {c1 c2 c d : Chunk} {σ : String → Option Val}
    {a : List (String × SlotArg)} (h1 : Named c1) (h2 : Named c2) (hsub : ∀ n x, (n, SlotOf.vv x) ∈ c1.slots → n ∈ c2.slots.map Prod.fst)
    (hm : mergeSlots c1.slots c2.slots = .ok a) (hc : mkChunk E reg c1.typ a = .ok c) (h : CondHolds c d σ) : CondHolds c1 d σ := by
  obtain ⟨b, rfl, hf⟩ := mergeSlots_ok hm
  have hk : b.map Prod.fst = c2.slots.map Prod.fst := forall₂_names hf (fun _ _ h => h.1)
  obtain ⟨_, _, h3, _⟩ := mkChunk_parts hr (by rw [hk]; exact h2) hc
  rw [condHolds_iff] at h ⊢
  intro n s w hms hw
  cases s with
  | empty => trivial
  | vv x0 =>
  obtain ⟨⟨n', s2⟩, hs2, rfl⟩ := List.mem_map.1 (hsub n x0 hms)
  obtain ⟨⟨m, x⟩, hx, hn', t, ht, hq⟩ := forall₂_left hf hs2
  simp only at hn' hq ht hms hw
  subst hn' hq
  rw [alook_of_mem h1 hms] at ht
  cases ht
  exact slotTrue_merge (h _ _ w (h3 _ _ hx) hw)

/-! ## Collapsing conditions -/

/-- What the first loop makes of a condition of the first rule. -/
def MergedCond (E : PyEnv) (reg : Reg) (p2 : List (Key × LVal)) (k : Key) (v v' : LVal) : Prop :=
  v' = v ∨ k.code = '=' ∧ ∃ c1 c2 c a, v = .chunk c1 ∧ (k, LVal.chunk c2) ∈ p2 ∧ mergeSlots c1.slots c2.slots = .ok a ∧
    mkChunk E reg c1.typ a = .ok c ∧ v' = .chunk c

theorem kdel_mem {α : Type} {k m : Key} {a : α} {l : List (Key × α)} : (m, a) ∈ kdel k l ↔ (m, a) ∈ l ∧ m ≠ k := by
  simp [kdel]

theorem collapseLhs1_keeps {E : PyEnv} {reg : Reg} {sv : SlotVals} {ret : Option String} :
    ∀ {l1 p2 : List (Key × LVal)} {p : List (Key × LVal) × List (Key × LVal)}, collapseLhs1 E reg sv ret l1 p2 = .ok p →
      (∀ k v, (k, v) ∈ l1 → ∃ v', (k, v') ∈ p.1 ∧ MergedCond E reg p2 k v v') ∧
      (∀ k v, k.code = '=' → k ∈ l1.map Prod.fst → (k, v) ∉ p.2) ∧
      (∀ k v, (k, v) ∈ p2 → (k.code = '?' ∨ k ∉ l1.map Prod.fst) → (k, v) ∈ p.2) ∧ (∀ k v, (k, v) ∈ p.2 → (k, v) ∈ p2) := by
  intro l1
  induction l1 with
  | nil =>
    intro p2 p h
    simp only [collapseLhs1, Except.ok.injEq] at h
    subst h
    simp
  | cons x r ih =>
    obtain ⟨k, v⟩ := x
    intro p2 p h
    have rest : ∀ {w : LVal} {q : List (Key × LVal)}, (∀ m a, (m, a) ∈ q → (m, a) ∈ p2) →
        (k.code = '=' → ∀ a, (k, a) ∉ q) → (∀ m a, (m, a) ∈ p2 → (m.code = '?' ∨ m ≠ k) → (m, a) ∈ q) →
        MergedCond E reg p2 k v w →
        (match collapseLhs1 E reg sv ret r q with
          | .error e => .error e
          | .ok (l, q') => .ok ((k, w) :: l, q') : Except PyErr (List (Key × LVal) × List (Key × LVal))) = .ok p →
        (∀ m a, (m, a) ∈ (k, v) :: r → ∃ v', (m, v') ∈ p.1 ∧ MergedCond E reg p2 m a v') ∧
        (∀ m a, m.code = '=' → m ∈ ((k, v) :: r).map Prod.fst → (m, a) ∉ p.2) ∧
        (∀ m a, (m, a) ∈ p2 → (m.code = '?' ∨ m ∉ ((k, v) :: r).map Prod.fst) → (m, a) ∈ p.2) ∧
        (∀ m a, (m, a) ∈ p.2 → (m, a) ∈ p2) := by
      intro w q hq hk hq' hw h
      rcases hc : collapseLhs1 E reg sv ret r q with e | ⟨l, q'⟩
      · rw [hc] at h; cases h
      · rw [hc] at h
        simp only [Except.ok.injEq] at h
        subst h
        obtain ⟨h1, h2, h3, h4⟩ := ih hc
        refine ⟨?_, ?_, ?_, fun m a hm => hq _ _ (h4 m a hm)⟩
        · intro m a hm
          rcases List.mem_cons.1 hm with e | hm
          · cases e; exact ⟨w, List.mem_cons_self, hw⟩
          · obtain ⟨v', hv', hM⟩ := h1 m a hm
            refine ⟨v', List.mem_cons_of_mem _ hv', ?_⟩
            rcases hM with e | ⟨hm', c1, c2, c, d, e1, e2, e3⟩
            · exact Or.inl e
            · exact Or.inr ⟨hm', c1, c2, c, d, e1, hq _ _ e2, e3⟩
        · intro m a hm hmem hin
          rcases List.mem_cons.1 hmem with e | hmem
          · simp only at e; subst e; exact hk hm a (h4 _ _ hin)
          · exact h2 m a hm hmem hin
        · intro m a hm hor
          refine h3 m a (hq' m a hm ?_) ?_
          · rcases hor with h | h
            · exact Or.inl h
            · exact Or.inr (fun e => h (by simp [e]))
          · rcases hor with h | h
            · exact Or.inl h
            · exact Or.inr (fun e => h (List.mem_cons_of_mem _ e))
    simp only [collapseLhs1] at h
    by_cases hq : k.code = '?'
    · rw [if_pos hq] at h
      exact rest (fun _ _ h => h) (fun e => by rw [hq] at e; exact absurd e (by decide)) (fun _ _ h _ => h) (Or.inl rfl) h
    · rw [if_neg hq] at h
      by_cases he : k.code = '='
      · rw [if_pos he] at h
        rcases hk : klook k p2 with _ | w
        · rw [hk] at h
          exact rest (fun _ _ h => h) (fun _ a ha => klook_none_iff.1 hk (List.mem_map.2 ⟨_, ha, rfl⟩)) (fun _ _ h _ => h)
            (Or.inl rfl) h
        · rw [hk] at h
          cases v with
          | dict d => simp at h
          | chunk c1 =>
            cases w with
            | dict d => simp at h
            | chunk c2 =>
              simp only at h
              have d1 : ∀ m a, (m, a) ∈ kdel k p2 → (m, a) ∈ p2 := fun m a h => (kdel_mem.1 h).1
              have d2 : k.code = '=' → ∀ a, (k, a) ∉ kdel k p2 := fun _ a h => (kdel_mem.1 h).2 rfl
              have d3 : ∀ m a, (m, a) ∈ p2 → (m.code = '?' ∨ m ≠ k) → (m, a) ∈ kdel k p2 := by
                intro m a hm hor
                refine kdel_mem.2 ⟨hm, ?_⟩
                rcases hor with h' | h'
                · rintro rfl; exact hq h'
                · exact h'
              by_cases hr : ((alook k.name sv).isNone && ret == some k.name) = true
              · rw [if_pos hr] at h
                exact rest d1 d2 d3 (Or.inl rfl) h
              · rw [if_neg hr] at h
                rcases hm : mergeSlots c1.slots c2.slots with e | d
                · rw [hm] at h; cases h
                · rw [hm] at h
                  simp only at h
                  rcases hc : mkChunk E reg c1.typ d with e | c
                  · rw [hc] at h; cases h
                  · rw [hc] at h
                    exact rest d1 d2 d3 (Or.inr ⟨he, c1, c2, c, d, rfl, mem_of_klook hk, hm, hc, rfl⟩) h
      · rw [if_neg he] at h; cases h

/-- `d'` answers every query of `d`. -/
def Answers (d d' : List (String × String)) : Prop := ∀ a x, alook a d = some x → alook a d' = some x

theorem alook_update (a : String) : ∀ (d m : List (String × String)), (d.map Prod.fst).Nodup →
    alook a (d.foldl (fun m p => aset p.1 p.2 m) m) = (alook a d).or (alook a m)
  | [], m, _ => by simp [alook]
  | (b, x) :: r, m, hn => by
    simp only [List.map_cons, List.nodup_cons] at hn
    rw [List.foldl_cons, alook_update a r _ hn.2, alook_aset]
    by_cases h : a = b
    · subst h
      have : alook a r = Option.none := by
        rcases hr : alook a r with _ | y
        · rfl
        · exact absurd (mem_keys_iff.2 ⟨y, hr⟩) hn.1
      simp [alook, this]
    · simp [alook, h, Ne.symm h]

theorem actsOn_false {b : String} : ∀ {r : List (Key × RVal)}, actsOn b r = .ok false → ¬ ActsUpon r b
  | [], _ => by rintro ⟨k, v, h, _⟩; simp at h
  | (k, v) :: r, h => by
    simp only [actsOn] at h
    rintro ⟨m, u, hm, hn, hc⟩
    by_cases h1 : k.code = '=' ∨ k.code = '?'
    · rw [if_pos h1] at h
      rcases List.mem_cons.1 hm with e | hm
      · cases e
        rcases h1 with e | e <;> (rw [e] at hc; simp at hc)
      · exact actsOn_false h ⟨m, u, hm, hn, hc⟩
    · rw [if_neg h1] at h
      split at h
      · by_cases h2 : k.name = b
        · rw [if_pos h2] at h; cases h
        · rw [if_neg h2] at h
          rcases List.mem_cons.1 hm with e | hm
          · cases e; exact h2 hn
          · exact actsOn_false h ⟨m, u, hm, hn, hc⟩
      · cases h

theorem actsOn_true {b : String} : ∀ {r : List (Key × RVal)}, actsOn b r = .ok true → ActsUpon r b
  | [], h => by simp [actsOn] at h
  | (k, v) :: r, h => by
    simp only [actsOn] at h
    have tail : actsOn b r = .ok true → ActsUpon ((k, v) :: r) b := fun h => by
      obtain ⟨m, u, hm, hn, hc⟩ := actsOn_true h
      exact ⟨m, u, List.mem_cons_of_mem _ hm, hn, hc⟩
    by_cases h1 : k.code = '=' ∨ k.code = '?'
    · rw [if_pos h1] at h; exact tail h
    · rw [if_neg h1] at h
      split at h
      · rename_i hc
        by_cases h2 : k.name = b
        · exact ⟨k, v, List.mem_cons_self, h2, by simpa using hc⟩
        · rw [if_neg h2] at h; exact tail h
      · cases h

/-- The second loop keeps tests, and adds queries. -/
theorem collapseLhs2_keeps {E : PyEnv} {reg : Reg} {rhs1 : List (Key × RVal)} {sv : SlotVals} {ret : Option String} {k : Key} :
    ∀ {p2 p1 l : List (Key × LVal)}, collapseLhs2 E reg (.ok rhs1) sv ret p2 p1 = .ok l →
      (∀ v, k.code ≠ '?' → klook k p1 = some v → (∀ a, (k, a) ∉ p2) → klook k l = some v) ∧
      (∀ d d0, klook k p1 = some (.dict d0) → k.code = '?' → Answers d d0 →
        (∀ d2, (k, LVal.dict d2) ∈ p2 → (d2.map Prod.fst).Nodup ∧
          ∀ a x y, alook a d = some x → (a, y) ∈ d2 → x = y ∨ ActsUpon rhs1 k.name) →
        ∃ d', klook k l = some (.dict d') ∧ Answers d d') := by
  intro p2
  induction p2 with
  | nil =>
    intro p1 l h
    simp only [collapseLhs2, Except.ok.injEq] at h
    subst h
    exact ⟨fun v _ h _ => h, fun d d0 h _ ha _ => ⟨d0, h, ha⟩⟩
  | cons x r ih =>
    obtain ⟨m, u⟩ := x
    intro p1 l h
    simp only [collapseLhs2, Except.bind] at h
    by_cases hq : m.code = '?'
    · rw [if_pos hq] at h
      rcases ha : actsOn m.name rhs1 with e | b
      · rw [ha] at h; cases h
      rw [ha] at h
      cases b with
      | true =>
        obtain ⟨i1, i2⟩ := ih h
        exact ⟨fun v hc hk hn => i1 v hc hk (fun a ha => hn a (List.mem_cons_of_mem _ ha)),
          fun d d0 hk hc hA hQ => i2 d d0 hk hc hA (fun d2 hd => hQ d2 (List.mem_cons_of_mem _ hd))⟩
      | false =>
        cases u with
        | chunk c => simp at h
        | dict d2 =>
          have other : ∀ w, collapseLhs2 E reg (.ok rhs1) sv ret r (kset m w p1) = .ok l →
              (∀ v, k.code ≠ '?' → klook k p1 = some v → (∀ a, (k, a) ∉ (m, LVal.dict d2) :: r) → klook k l = some v) := by
            intro w hw v hc hk hn
            refine (ih hw).1 v hc ?_ (fun a ha => hn a (List.mem_cons_of_mem _ ha))
            rw [klook_kset]
            rw [if_neg]
            · exact hk
            · rintro rfl; exact hc hq
          rcases hk1 : klook m p1 with _ | w
          · rw [hk1] at h
            refine ⟨other _ h, fun d d0 hk hc hA hQ => ?_⟩
            refine (ih h).2 d d0 ?_ hc hA (fun d2 hd => hQ d2 (List.mem_cons_of_mem _ hd))
            rw [klook_kset, if_neg]
            · exact hk
            · rintro rfl; rw [hk1] at hk; cases hk
          · rw [hk1] at h
            cases w with
            | chunk c => simp at h
            | dict d1 =>
              refine ⟨other _ h, fun d d0 hk hc hA hQ => ?_⟩
              by_cases hkm : k = m
              · subst hkm
                rw [hk1] at hk
                cases hk
                obtain ⟨hnd, hval⟩ := hQ d2 List.mem_cons_self
                refine (ih h).2 d _ (by rw [klook_kset, if_pos rfl]) hc ?_ (fun d2 hd => hQ d2 (List.mem_cons_of_mem _ hd))
                intro a y hy
                rw [alook_update a d2 _ hnd]
                rcases h2 : alook a d2 with _ | z
                · simpa using hA a y hy
                · rcases hval a y z hy (alook_mem h2) with e | e
                  · simp [e]
                  · exact absurd e (actsOn_false ha)
              · refine (ih h).2 d d0 ?_ hc hA (fun d2 hd => hQ d2 (List.mem_cons_of_mem _ hd))
                rw [klook_kset, if_neg hkm]; exact hk
    · rw [if_neg hq] at h
      by_cases he : m.code = '='
      · rw [if_pos he] at h
        cases u with
        | dict d => simp at h
        | chunk c2 =>
          simp only at h
          by_cases hr : ((alook m.name sv).isNone && ret == some m.name) = true
          · rw [if_pos hr] at h
            obtain ⟨i1, i2⟩ := ih h
            exact ⟨fun v hc hk hn => i1 v hc hk (fun a ha => hn a (List.mem_cons_of_mem _ ha)),
              fun d d0 hk hc hA hQ => i2 d d0 hk hc hA (fun d2 hd => hQ d2 (List.mem_cons_of_mem _ hd))⟩
          · rw [if_neg hr] at h
            rcases hc : mkChunk E reg c2.typ (c2.slots.map (fun p => (p.1, slotArg p.2))) with e | c
            · rw [hc] at h; cases h
            · rw [hc] at h
              obtain ⟨i1, i2⟩ := ih h
              refine ⟨fun v hc hk hn => i1 v hc ?_ (fun a ha => hn a (List.mem_cons_of_mem _ ha)),
                fun d d0 hk hc hA hQ => i2 d d0 ?_ hc hA (fun d2 hd => hQ d2 (List.mem_cons_of_mem _ hd))⟩
              · rw [klook_kset, if_neg]
                · exact hk
                · rintro rfl; exact hn _ List.mem_cons_self
              · rw [klook_kset, if_neg]
                · exact hk
                · rintro rfl; exact hq hc
      · rw [if_neg he] at h; cases h

/-! ## What variables are replaced by -/

/-- Variables are replaced by variables with a name, and by values that require something. -/
structure SoundMatch (st : MatchSt) : Prop where
  vars : ∀ n v, alook n st.matched = some v → v ≠ ""
  vals : ∀ n v, alook n st.valued = some v → PlainVal v ∧ Hard v

theorem asetAll_look {α : Type} {a : α} {n : String} {v : α} : ∀ {l : List String} {d : List (String × α)},
    alook n (asetAll l a d) = some v → v = a ∨ alook n d = some v
  | [], d, h => Or.inr h
  | x :: r, d, h => by
    rcases asetAll_look (l := r) (d := aset x a d) h with e | e
    · exact Or.inl e
    · rw [alook_aset] at e
      split at e
      · cases e; exact Or.inl rfl
      · exact Or.inr e

theorem foldl_shortest (r : List String) (x : String) : (r.foldl (fun m y => if y.length < m.length then y else m) x) ∈ x :: r := by
  induction r generalizing x with
  | nil => simp
  | cons y r ih =>
    rw [List.foldl_cons]
    have := ih (if y.length < x.length then y else x)
    rcases List.mem_cons.1 this with h | h
    · rw [h]; split <;> simp
    · simp [h]

theorem tieVars_sound {E : PyEnv} {set : List String} {v : Val} {st : MatchSt} (h : SoundMatch st) (hs : "" ∉ set)
    (hv : v.truthy = true → PlainVal v ∧ v ≠ .empty) : SoundMatch (tieVars E set v st) := by
  unfold tieVars
  split
  · rename_i ht
    refine ⟨h.vars, fun n w hw => ?_⟩
    rcases asetAll_look hw with rfl | hw
    · exact ⟨(hv ht).1, ht, (hv ht).2⟩
    · exact h.vals n w hw
  · rcases ho : E.ord set with _ | ⟨x, r⟩
    · simpa only [ho] using h
    · simp only [ho]
      refine ⟨fun n w hw => ?_, h.vals⟩
      rcases asetAll_look hw with rfl | hw
      · intro e
        have := foldl_shortest r x
        rw [e, ← ho, (E.perm _).mem_iff] at this
        exact hs this
      · exact h.vars n w hw

theorem slotVarSet_ne (a b : VarVal) : "" ∉ slotVarSet a b := by
  have one : ∀ x : VarVal, "" ∉ (if optStrTruthy x.vars then [x.vars.getD ""] else []) := by
    intro x
    split
    · rename_i h
      rcases hx : x.vars with _ | v
      · simp [optStrTruthy, hx] at h
      · simp only [optStrTruthy, hx, bne_iff_ne, ne_eq] at h
        simpa using h
    · simp
  simp only [slotVarSet, List.mem_dedup, List.mem_append, not_or]
  exact ⟨one a, one b⟩

/-- The values of slots are data. -/
def DataSlots (l : Slots) : Prop := ∀ n x, (n, SlotOf.vv x) ∈ l → PlainVal x.values ∧ x.values ≠ .empty

theorem data_splitting {s : Slot} (h : ∀ x, s = .vv x → PlainVal x.values ∧ x.values ≠ .empty) :
    PlainVal (splitting s).values ∧ (splitting s).values ≠ .empty := by
  cases s with
  | empty => simp [splitting, PlainVal]
  | vv x => exact h x rfl

theorem matchRetr_sound {E : PyEnv} {d3 : Slots} {c : Option Chunk} (hc : ∀ c', c = some c' → DataSlots c'.slots) :
    ∀ {l : Slots} {st : MatchSt}, SoundMatch st → SoundMatch (matchRetr E d3 c l st)
  | [], st, h => h
  | (n, s) :: r, st, h => by
    simp only [matchRetr]
    refine matchRetr_sound hc (tieVars_sound h (slotVarSet_ne _ _) (fun _ => ?_))
    unfold retrievedVal
    cases c with
    | none => simp [PlainVal]
    | some c =>
      simp only
      rcases ha : alook n c.slots with _ | s'
      · simp [PlainVal]
      · cases s' with
        | empty => simp [PlainVal]
        | vv x => exact hc c rfl n x (alook_mem ha)

theorem matchDict_sound {P : Py} {d3 : Slots} (hd : DataSlots d3) :
    ∀ {l : Slots} {st st' : MatchSt}, DataSlots l → SoundMatch st → matchDict P d3 l st = .ok st' → SoundMatch st'
  | [], st, st', _, h, he => by simp only [matchDict, Except.ok.injEq] at he; exact he ▸ h
  | (n, s) :: r, st, st', hl, h, he => by
    simp only [matchDict] at he
    split at he
    · cases he
    · refine matchDict_sound hd (fun m x hm => hl m x (List.mem_cons_of_mem _ hm))
        (tieVars_sound h (slotVarSet_ne _ _) (fun _ => ?_)) he
      split
      · exact data_splitting (fun x e => hl n x (by rw [← e]; exact List.mem_cons_self))
      · refine data_splitting (fun x e => ?_)
        rcases ha : alook n d3 with _ | s'
        · rw [ha] at e; cases e
        · rw [ha] at e; simp only [Option.getD_some] at e; subst e; exact hd n x (alook_mem ha)

/-- Everything known about the buffers is data. -/
def DataKnown (sv : SlotVals) : Prop :=
  (∀ b d, (b, SlotInfo.dict d) ∈ sv → DataSlots d) ∧ ∀ b d c, (b, SlotInfo.retr d (some c)) ∈ sv → DataSlots c.slots

theorem dataKnown_adel {sv : SlotVals} {n : String} (h : DataKnown sv) : DataKnown (adel n sv) :=
  ⟨fun b d hm => h.1 b d (List.mem_filter.1 hm).1, fun b d c hm => h.2 b d c (List.mem_filter.1 hm).1⟩

theorem matchRules_sound {P : Py} : ∀ {l : List (Key × LVal)} {tmp sv sv' : SlotVals} {st st' : MatchSt},
    (∀ k c, (k, LVal.chunk c) ∈ l → DataSlots c.slots) → DataKnown tmp → SoundMatch st →
    matchRules P l tmp sv st = .ok (sv', st') → SoundMatch st'
  | [], tmp, sv, sv', st, st', _, _, h, he => by simp only [matchRules, Except.ok.injEq, Prod.mk.injEq] at he; exact he.2 ▸ h
  | (k, v) :: r, tmp, sv, sv', st, st', hl, ht, h, he => by
    have hl' : ∀ k c, (k, LVal.chunk c) ∈ r → DataSlots c.slots := fun k c hm => hl k c (List.mem_cons_of_mem _ hm)
    simp only [matchRules] at he
    by_cases hc : isChunkCode k.code = true
    · rw [if_pos hc] at he
      cases v with
      | dict d => cases he
      | chunk c =>
        have hcs := hl k c List.mem_cons_self
        simp only at he
        rcases ha : alook k.name tmp with _ | i
        · rw [ha] at he
          simp only at he
          rcases hm : matchDict P c.slots c.slots st with e | st1
          · rw [hm] at he; cases he
          · rw [hm] at he
            exact matchRules_sound hl' ht (matchDict_sound hcs hcs h hm) he
        · rw [ha] at he
          cases i with
          | nothing =>
            simp only at he
            rcases hm : matchDict P [] c.slots st with e | st1
            · rw [hm] at he; cases he
            · rw [hm] at he
              exact matchRules_sound hl' (dataKnown_adel ht) (matchDict_sound (fun n x hx => by simp at hx) hcs h hm) he
          | dict d3 =>
            simp only at he
            rcases hm : matchDict P d3 c.slots st with e | st1
            · rw [hm] at he; cases he
            · rw [hm] at he
              exact matchRules_sound hl' (dataKnown_adel ht) (matchDict_sound (ht.1 _ _ (alook_mem ha)) hcs h hm) he
          | retr d3 c3 =>
            simp only at he
            exact matchRules_sound hl' (dataKnown_adel ht)
              (matchRetr_sound (fun c' e => ht.2 k.name d3 c' (by rw [← e]; exact alook_mem ha)) h) he
    · rw [if_neg hc] at he
      exact matchRules_sound hl' ht h he

theorem forall₂_right {α β : Type} {R : α → β → Prop} {l : List α} {l' : List β} (h : List.Forall₂ R l l') {b : β}
    (hb : b ∈ l') : ∃ a ∈ l, R a b := by
  induction h with
  | nil => simp at hb
  | cons h _ ih =>
    rcases List.mem_cons.1 hb with rfl | hb
    · exact ⟨_, List.mem_cons_self, h⟩
    · obtain ⟨a, ha, hr⟩ := ih hb
      exact ⟨a, List.mem_cons_of_mem _ ha, hr⟩

theorem mapLVal_chunk {E : PyEnv} {reg : Reg} {f : Slot → Except PyErr VarVal} {k : Key} {v : LVal} {c' : Chunk}
    (hk : k.code = '=') (h : mapLVal E reg f k v = .ok (.chunk c')) : ∃ c, v = .chunk c ∧ mapChunk E reg f c = .ok c' := by
  simp only [mapLVal, hk] at h
  rw [if_pos (by decide)] at h
  cases v with
  | dict d => cases h
  | chunk c =>
    simp only [Except.map] at h
    rcases hc : mapChunk E reg f c with e | c1
    · rw [hc] at h; cases h
    · rw [hc] at h; cases h; exact ⟨c, rfl, hc⟩

theorem mapLVal_query {E : PyEnv} {reg : Reg} {f : Slot → Except PyErr VarVal} {k : Key} {v v' : LVal}
    (hk : k.code = '?') (h : mapLVal E reg f k v = .ok v') : v' = v := by
  simp only [mapLVal, hk] at h
  rw [if_neg (by decide)] at h
  cases h; rfl

theorem collapseLhs1_codes {E : PyEnv} {reg : Reg} {sv : SlotVals} {ret : Option String} :
    ∀ {l1 p2 : List (Key × LVal)} {p : List (Key × LVal) × List (Key × LVal)}, collapseLhs1 E reg sv ret l1 p2 = .ok p →
      ∀ k v, (k, v) ∈ l1 → k.code = '=' ∨ k.code = '?' := by
  intro l1
  induction l1 with
  | nil => intro p2 p _ k v h; simp at h
  | cons x r ih =>
    obtain ⟨k, v⟩ := x
    intro p2 p h m a hm
    have rest : ∀ {w : LVal} {q : List (Key × LVal)},
        (match collapseLhs1 E reg sv ret r q with
          | .error e => .error e
          | .ok (l, q') => .ok ((k, w) :: l, q') : Except PyErr (List (Key × LVal) × List (Key × LVal))) = .ok p →
        (k.code = '=' ∨ k.code = '?') → m.code = '=' ∨ m.code = '?' := by
      intro w q h hk
      rcases hc : collapseLhs1 E reg sv ret r q with e | ⟨l, q'⟩
      · rw [hc] at h; cases h
      · rcases List.mem_cons.1 hm with e | hm
        · cases e; exact hk
        · exact ih hc m a hm
    simp only [collapseLhs1] at h
    by_cases hq : k.code = '?'
    · rw [if_pos hq] at h; exact rest h (Or.inr hq)
    · rw [if_neg hq] at h
      by_cases he : k.code = '='
      · rw [if_pos he] at h
        rcases hk : klook k p2 with _ | w
        · rw [hk] at h; exact rest h (Or.inl he)
        · rw [hk] at h
          cases v with
          | dict d => simp at h
          | chunk c1 =>
            cases w with
            | dict d => simp at h
            | chunk c2 =>
              simp only at h
              by_cases hr : ((alook k.name sv).isNone && ret == some k.name) = true
              · rw [if_pos hr] at h; exact rest h (Or.inl he)
              · rw [if_neg hr] at h
                rcases hm : mergeSlots c1.slots c2.slots with e | d
                · rw [hm] at h; cases h
                · rw [hm] at h
                  simp only at h
                  rcases hc : mkChunk E reg c1.typ d with e | c
                  · rw [hc] at h; cases h
                  · rw [hc] at h; exact rest h (Or.inl he)
      · rw [if_neg he] at h; cases h

theorem slotTrue_congr {σ τ : String → Option Val} {s : Slot} {w : Val} (h : SlotTrue σ s w)
    (he : ∀ x y, s = .vv x → x.vars = some y ∨ y ∈ x.negvars → τ y = σ y) : SlotTrue τ s w := by
  cases s with
  | empty => trivial
  | vv x =>
    obtain ⟨h1, h2, h3⟩ := h
    refine ⟨fun y hy hne => ?_, fun y v hy hv => h2 y v hy ?_, h3⟩
    · rw [he x y rfl (Or.inl hy)]; exact h1 y hy hne
    · rw [← he x y rfl (Or.inr hy)]; exact hv

theorem renameSlot_values {E : PyEnv} {name : String} {used : List String} {s : Slot} {y : VarVal}
    (h : renameSlot E name used s = .ok y) : y.values = (splitting s).values := by
  simp only [renameSlot] at h
  split at h
  · cases h
  · split at h
    · cases h
    · cases h; rfl

/-- What compiling two rules amounts to. -/
structure Compiling (P : Py) (reg : Reg) (l1 : List (Key × LVal)) (r1 : List (Key × RVal)) (l2 : List (Key × LVal))
    (r2 : List (Key × RVal)) (name2 : String) (sv : SlotVals) (bufs : List (String × CBuf)) (lhs : List (Key × LVal))
    (rhs : List (Key × RVal)) where
  sc : Scan
  sv' : SlotVals
  sv'' : SlotVals
  st : MatchSt
  m2 : List (Key × LVal)
  n2 : List (Key × RVal)
  l1' : List (Key × LVal)
  l2' : List (Key × LVal)
  r1' : List (Key × RVal)
  r2' : List (Key × RVal)
  p : List (Key × LVal) × List (Key × LVal)
  q : List (Key × RVal)
  hcheck : checkCompilation bufs ⟨.ok l1, .ok r1⟩ ⟨.ok l2, .ok r2⟩ = .ok false
  hsc : scanSlotVals bufs sv ⟨[], Option.none⟩ = .ok (some sc)
  hm2 : mapEntries (mapLVal P.toPyEnv reg (renameSlot P.toPyEnv name2 sc.used)) l2 = .ok m2
  hn2 : mapEntries (mapRVal P.toPyEnv reg (renameSlot P.toPyEnv name2 sc.used)) r2 = .ok n2
  hst : matchRules P m2 sv sv ⟨[], []⟩ = .ok (sv', st)
  hsv : substSlotVals P st sv' = .ok sv''
  hl1 : mapEntries (mapLVal P.toPyEnv reg (substSlot P st.matched st.valued)) l1 = .ok l1'
  hl2 : mapEntries (mapLVal P.toPyEnv reg (substSlot P st.matched st.valued)) m2 = .ok l2'
  hr1 : mapEntries (mapRVal P.toPyEnv reg (substSlot P st.matched st.valued)) r1 = .ok r1'
  hr2 : mapEntries (mapRVal P.toPyEnv reg (substSlot P st.matched st.valued)) n2 = .ok r2'
  hp : collapseLhs1 P.toPyEnv reg sv'' sc.retrieval l1' l2' = .ok p
  hlhs : collapseLhs2 P.toPyEnv reg (.ok r1') sv'' sc.retrieval p.2 p.1 = .ok lhs
  hq : collapseRhs2 P.toPyEnv reg sv'' r2' = .ok q
  hrhs : collapseRhs1 P.toPyEnv reg sc.retrieval r1' q = .ok rhs

theorem newRule_compiling {P : Py} {reg : Reg} {name2 : String} {l1 l2 lhs : List (Key × LVal)} {r1 r2 rhs : List (Key × RVal)}
    {sv : SlotVals} {bufs : List (String × CBuf)}
    (h : newRule P reg name2 ⟨.ok l1, .ok r1⟩ ⟨.ok l2, .ok r2⟩ sv bufs = .ok (some ⟨.ok lhs, .ok rhs⟩)) :
    Nonempty (Compiling P reg l1 r1 l2 r2 name2 sv bufs lhs rhs) := by
  simp only [newRule, Except.bind] at h
  split at h
  · cases h
  rename_i stop hcheck
  split at h
  · cases h
  rename_i hstop
  split at h
  · cases h
  split at h
  · cases h
  rename_i sc hsc
  simp only [renameBody, mapBody, Except.bind] at h
  split at h
  · cases h
  rename_i m2 hm2
  split at h
  · cases h
  rename_i q hst
  obtain ⟨sv', st⟩ := q
  simp only [Except.map] at h
  split at h
  · cases h
  rename_i sv'' hsv
  simp only [Except.ok.injEq, Option.some.injEq, collapse, Body.mk.injEq, substBody, mapBody, Except.bind, hm2] at h
  obtain ⟨h1, h2⟩ := h
  rcases hl1 : mapEntries (mapLVal P.toPyEnv reg (substSlot P st.matched st.valued)) l1 with e | l1'
  · simp [hl1] at h1
  rcases hl2 : mapEntries (mapLVal P.toPyEnv reg (substSlot P st.matched st.valued)) m2 with e | l2'
  · simp [hl1, hl2] at h1
  rcases hr1 : mapEntries (mapRVal P.toPyEnv reg (substSlot P st.matched st.valued)) r1 with e | r1'
  · simp [hr1] at h2
  rcases hn2 : mapEntries (mapRVal P.toPyEnv reg (renameSlot P.toPyEnv name2 sc.used)) r2 with e | n2
  · simp [hr1, hn2] at h2
  simp only [hl1, hl2, hr1] at h1
  simp only [hr1, hn2] at h2
  rcases hr2 : mapEntries (mapRVal P.toPyEnv reg (substSlot P st.matched st.valued)) n2 with e | r2'
  · simp [hr2] at h2
  rcases hp : collapseLhs1 P.toPyEnv reg sv'' sc.retrieval l1' l2' with e | p
  · simp [hp] at h1
  simp only [hp] at h1
  simp only [hr2] at h2
  rcases hq : collapseRhs2 P.toPyEnv reg sv'' r2' with e | q
  · simp [hq] at h2
  simp only [hq] at h2
  have hstop' : stop = false := by simpa using hstop
  exact ⟨⟨sc, sv', sv'', st, m2, n2, l1', l2', r1', r2', p, q, hstop' ▸ hcheck, hsc, hm2, hn2, hst, hsv, hl1, hl2, hr1, hr2, hp, h1,
    hq, h2⟩⟩

theorem keys_mapped {α : Type} {f : Key → α → Except PyErr α} {l l' : List (Key × α)} (h : mapEntries f l = .ok l') :
    l'.map Prod.fst = l.map Prod.fst := by
  have := mapEntries_ok h
  clear h
  induction this with
  | nil => rfl
  | cons h1 _ ih => simp [h1.1, ih]

theorem mapped_mem {α : Type} {f : Key → α → Except PyErr α} {l l' : List (Key × α)} (h : mapEntries f l = .ok l') {k : Key} {a : α}
    (hm : (k, a) ∈ l) : ∃ a', (k, a') ∈ l' ∧ f k a = .ok a' := by
  obtain ⟨⟨k', a'⟩, hb, h1, h2⟩ := forall₂_left (mapEntries_ok h) hm
  simp only at h1 h2
  subst h1
  exact ⟨a', hb, h2⟩

theorem mapped_from {α : Type} {f : Key → α → Except PyErr α} {l l' : List (Key × α)} (h : mapEntries f l = .ok l') {k : Key} {a' : α}
    (hm : (k, a') ∈ l') : ∃ a, (k, a) ∈ l ∧ f k a = .ok a' := by
  obtain ⟨⟨k', a⟩, hb, h1, h2⟩ := forall₂_right (mapEntries_ok h) hm
  simp only at h1 h2
  subst h1
  exact ⟨a, hb, h2⟩

theorem actsUpon_mapped {f : Key → RVal → Except PyErr RVal} {r r' : List (Key × RVal)} (h : mapEntries f r = .ok r') {b : String} :
    ActsUpon r b → ActsUpon r' b := by
  rintro ⟨k, v, hm, hk⟩
  obtain ⟨v', hm', _⟩ := mapped_mem h hm
  exact ⟨k, v', hm', hk⟩

theorem actsUpon_unmapped {f : Key → RVal → Except PyErr RVal} {r r' : List (Key × RVal)} (h : mapEntries f r = .ok r') {b : String} :
    ActsUpon r' b → ActsUpon r b := by
  rintro ⟨k, v, hm, hk⟩
  obtain ⟨v', hm', _⟩ := mapped_from h hm
  exact ⟨k, v', hm', hk⟩

section
variable {P : Py} {reg : Reg} {name2 : String} {l1 l2 lhs : List (Key × LVal)} {r1 r2 rhs : List (Key × RVal)}
  {sv : SlotVals} {bufs : List (String × CBuf)}

/-- What variables are replaced by during compilation. -/
theorem Compiling.sound (C : Compiling P reg l1 r1 l2 r2 name2 sv bufs lhs rhs) (hr : RegOk P.toPyEnv reg) (g2 : GoodRule reg l2 r2)
    (hD : DataMentioned l2 sv) : SoundMatch C.st := by
  refine matchRules_sound ?_ ⟨fun b d h n x hx => hD _ (.known h hx), fun b d c h n x hx => hD _ (.retrieved h hx)⟩
    ⟨by simp [alook], by simp [alook]⟩ C.hst
  intro k c' hm n x hx
  obtain ⟨v, hv, hf⟩ := mapped_from C.hm2 hm
  by_cases hk : isChunkCode k.code = true
  · have hk' : k.code ∈ ['=', '+', '@', '*'] := by simpa [isChunkCode, or_assoc] using hk
    obtain ⟨c, rfl, hc⟩ := g2.lhs k v hv hk'
    simp only [mapLVal, hk, if_true, Except.map] at hf
    rcases hc1 : mapChunk P.toPyEnv reg (renameSlot P.toPyEnv name2 C.sc.used) c with e | c1
    · rw [hc1] at hf; cases hf
    · rw [hc1] at hf
      cases hf
      rcases (mapChunk_ok hr hc.1 hc1).2.2.2.1 n _ hx with e | ⟨s, y, hs, hy, e⟩
      · cases e
      · cases e
        rw [renameSlot_values hy]
        exact data_splitting (fun z hz => by subst hz; exact hD _ (.test hv hs))
  · simp only [mapLVal, hk] at hf
    simp at hf
    subst hf
    exact hD _ (.test hv hx)

open Classical in
/-- The assignment that makes the first rule's conditions true. -/
noncomputable def firstAssign (D : Val → Prop) (st : MatchSt) (l1 : List (Key × LVal)) (σ : String → Option Val) :
    String → Option Val := fun n => if Tested l1 n then σ n else pull D st.matched st.valued σ n

/-- If the conditions of the compiled rule hold, so do those of the first rule. -/
theorem Compiling.demand (C : Compiling P reg l1 r1 l2 r2 name2 sv bufs lhs rhs) (cf : P.H.CollisionFree) (hr : RegOk P.toPyEnv reg)
    (hd1 : DictBody ⟨.ok l1, .ok r1⟩) (hd2 : DictBody ⟨.ok l2, .ok r2⟩) (g1 : GoodRule reg l1 r1) (g2 : GoodRule reg l2 r2)
    (hq1 : QueriesAreDicts l1) (hA : AskAlike l1 r1 l2) (hT : TestAlike reg l1 l2) (hN : PlainNames l1)
    (hD : DataMentioned (l1 ++ l2) sv) (hP : GoodPatterns l1) {D : Val → Prop} {faces : Faces} (hB : GoodBuffers D faces l1)
    {σ : String → Option Val} (hσ : RuleHolds D faces lhs σ) : RuleHolds D faces l1 (firstAssign D C.st l1 σ) := by
  have hD2 : DataMentioned l2 sv := by
    intro v hv
    apply hD
    cases hv with
    | test h1 h2 => exact .test (List.mem_append_right _ h1) h2
    | known h1 h2 => exact .known h1 h2
    | retrieved h1 h2 => exact .retrieved h1 h2
  have snd := C.sound hr g2 hD2
  obtain ⟨k1, k2, k3, k4⟩ := collapseLhs1_keeps C.hp
  have hcodes := collapseLhs1_codes C.hp
  have hkeys : (C.p.1.map Prod.fst).Nodup := by
    rw [(collapseLhs1_ok C.hp).1, keys_mapped C.hl1]; exact (hd1.lhs l1 rfl).1
  refine ⟨fun y v hv => ?_, ?_⟩
  · simp only [firstAssign] at hv
    split at hv
    · exact hσ.data _ _ hv
    · exact pull_data hσ.data _ _ hv
  rintro ⟨⟨code, b⟩, v⟩ hm
  obtain ⟨v1, hm1, hf1⟩ := mapped_mem C.hl1 hm
  obtain ⟨v', hv', hM⟩ := k1 _ _ hm1
  have hk := klook_of_mem hkeys hv'
  rcases hcodes _ _ hm1 with hc | hc <;> simp only at hc <;> subst hc
  · -- a test
    obtain ⟨c1, rfl, hc1⟩ := g1.lhs _ v hm (by simp)
    have hl := (collapseLhs2_keeps (k := ⟨'=', b⟩) C.hlhs).1 v' (by simp) hk
      (fun a => k2 _ a rfl (List.mem_map.2 ⟨_, hm1, rfl⟩))
    have htrue := hσ.conds _ (mem_of_klook hl)
    have hb1 : Tested l1 b := ⟨c1, hm⟩
    -- the chunk of the first rule after substitution
    obtain ⟨c1', rfl⟩ : ∃ c1', v1 = .chunk c1' := by
      cases v1 with
      | chunk c => exact ⟨c, rfl⟩
      | dict d =>
        simp only [mapLVal] at hf1
        rw [if_pos (by decide)] at hf1
        simp only [Except.map] at hf1
        split at hf1 <;> cases hf1
    obtain ⟨c0, e0, hmap⟩ := mapLVal_chunk rfl hf1
    cases e0
    obtain ⟨_, hnamed, h3, h4, _⟩ := mapChunk_ok hr hc1.1 hmap
    obtain ⟨cm, rfl⟩ : ∃ cm, v' = .chunk cm := by
      cases htrue with
      | test => exact ⟨_, rfl⟩
    cases htrue with
    | test hface hdata hcond hself =>
    rename_i face d rest
    have hcond1 : CondHolds c1' d σ := by
      rcases hM with e | ⟨_, c1a, c2', c, a, e1, e2, e3, e4, e5⟩
      · cases e; exact hcond
      · cases e1; cases e5
        obtain ⟨w, hw, hfw⟩ := mapped_from C.hl2 e2
        obtain ⟨cr, rfl, hcr⟩ := mapLVal_chunk rfl hfw
        obtain ⟨u, hu, hfu⟩ := mapped_from C.hm2 hw
        obtain ⟨c2, rfl, hc2⟩ := mapLVal_chunk rfl hfu
        obtain ⟨c2', e, hk2⟩ := g2.lhs _ _ hu (by simp)
        cases e
        obtain ⟨t1, n1, _, _, _⟩ := mapChunk_ok hr hk2.1 hc2
        obtain ⟨t2, n2, _, _, a2⟩ := mapChunk_ok hr n1 hcr
        obtain ⟨fs, hfs, hsub⟩ := hT b c1 c2 hm hu
        refine condHolds_merge hr hnamed n2 (fun n x hx => a2 n ?_) e3 e4 hcond
        rcases h4 n _ hx with e | ⟨s, y, hs, _, _⟩
        · cases e
        · rw [t1, hfs]; exact hsub n (List.mem_map.2 ⟨_, hs, rfl⟩)
    refine .test hface hdata ?_ ?_
    · rw [condHolds_iff] at hcond1 ⊢
      intro n s w hs hw
      obtain ⟨y, hy, hys⟩ := h3 n s hs
      have hDw : D w := (hB.chunk b c1 face d rest hm hface hdata).2.2.1 n s w hs hw
      have hpl : PlainSlotVals s := by
        intro x hx
        subst hx
        have h1 := (hP b c1 hm).2 n x hs
        have h2 := hD _ (.test (List.mem_append_left _ hm) hs)
        exact ⟨h1.1, h2.2, h1.2⟩
      refine slotTrue_congr (slotTrue_subst cf snd.vars snd.vals hpl hy (hcond1 n _ w hys hw) hDw) ?_
      intro x y' hx hy'
      subst hx
      simp only [firstAssign]
      rw [if_neg]
      intro ht
      rcases hy' with hy' | hy'
      · exact (hN y' ht).1 ⟨b, c1, n, x, hm, hs, hy'⟩
      · exact (hN y' ht).2 ⟨b, c1, n, x, hm, hs, hy'⟩
    · simp only [firstAssign, if_pos hb1]; exact hself
  · -- queries
    obtain ⟨q, d0, rfl, hnd⟩ := hq1 b v hm
    generalize q :: d0 = d at *
    have e1 := mapLVal_query rfl hf1
    subst e1
    have e2 : v' = .dict d := by
      rcases hM with e | ⟨hc, _⟩
      · exact e
      · simp at hc
    subst e2
    obtain ⟨d', hl, hans⟩ := (collapseLhs2_keeps (k := ⟨'?', b⟩) C.hlhs).2 d d hk rfl (fun _ _ h => h) (by
      intro d2 hd2'
      obtain ⟨w, hw, hfw⟩ := mapped_from C.hl2 (k4 _ _ hd2')
      have := mapLVal_query rfl hfw
      subst this
      obtain ⟨u, hu, hfu⟩ := mapped_from C.hm2 hw
      have := mapLVal_query rfl hfu
      subst this
      refine ⟨(hd2.lhs l2 rfl).2 _ _ hu, fun a x y hx hy => ?_⟩
      rcases hA b d d2 a x y hm hu (alook_mem hx) hy with e | e
      · exact Or.inl e
      · exact Or.inr (actsUpon_mapped C.hr1 e))
    have htrue := hσ.conds _ (mem_of_klook hl)
    cases htrue with
    | query hall =>
    refine .query (fun a x hx => hall a x (alook_mem (hans a x (alook_of_mem hnd hx))))

end

/-! ## The second rule -/

theorem scan_retrieval {bufs : List (String × CBuf)} {b : String} : ∀ {sv : SlotVals} {sc sc' : Scan},
    scanSlotVals bufs sv sc = .ok (some sc') → sc'.retrieval = some b →
      sc.retrieval = some b ∨ ∃ d c, (b, SlotInfo.retr d c) ∈ sv
  | [], sc, sc', h, hb => by simp only [scanSlotVals, Except.ok.injEq, Option.some.injEq] at h; subst h; exact Or.inl hb
  | (a, .nothing) :: r, sc, sc', h, hb => by
    rcases scan_retrieval (by simpa only [scanSlotVals] using h) hb with e | ⟨d, c, hm⟩
    · exact Or.inl e
    · exact Or.inr ⟨d, c, List.mem_cons_of_mem _ hm⟩
  | (a, .dict d) :: r, sc, sc', h, hb => by
    simp only [scanSlotVals] at h
    rcases scan_retrieval h hb with e | ⟨d, c, hm⟩
    · exact Or.inl e
    · exact Or.inr ⟨d, c, List.mem_cons_of_mem _ hm⟩
  | (a, .retr d c) :: r, sc, sc', h, hb => by
    simp only [scanSlotVals] at h
    split at h
    · cases h
    · split at h
      · cases h
      · rcases scan_retrieval h hb with e | ⟨d, c, hm⟩
        · simp only [Option.some.injEq] at e
          subst e
          exact Or.inr ⟨d, c, List.mem_cons_self⟩
        · exact Or.inr ⟨d, c, List.mem_cons_of_mem _ hm⟩

theorem klook_kdel_ne {α : Type} {k m : Key} (h : k ≠ m) : ∀ l : List (Key × α), klook k (kdel m l) = klook k l
  | [] => rfl
  | (x, a) :: r => by
    have ih := klook_kdel_ne h r
    simp only [kdel] at ih ⊢
    by_cases hx : x = m
    · subst hx
      rw [List.filter_cons_of_neg (by simp), ih]
      simp [klook, Ne.symm h]
    · rw [List.filter_cons_of_pos (by simpa using hx)]
      by_cases hk : x = k
      · simp [klook, hk]
      · simp [klook, hk, ih]

/-- If both rules test a buffer, their tests are merged. -/
theorem collapseLhs1_merges {E : PyEnv} {reg : Reg} {sv : SlotVals} {ret : Option String} {k : Key} (hk : k.code = '=')
    (hret : ret ≠ some k.name) {c1 c2 : Chunk} :
    ∀ {l1 p2 : List (Key × LVal)} {p : List (Key × LVal) × List (Key × LVal)}, collapseLhs1 E reg sv ret l1 p2 = .ok p →
      (l1.map Prod.fst).Nodup → (k, LVal.chunk c1) ∈ l1 → klook k p2 = some (.chunk c2) →
      ∃ a c, mergeSlots c1.slots c2.slots = .ok a ∧ mkChunk E reg c1.typ a = .ok c ∧ (k, LVal.chunk c) ∈ p.1 := by
  intro l1
  induction l1 with
  | nil => intro p2 p _ _ h; simp at h
  | cons x r ih =>
    obtain ⟨m, v⟩ := x
    intro p2 p h hnd hm h2
    simp only [List.map_cons, List.nodup_cons] at hnd
    have rest : ∀ {w : LVal} {q : List (Key × LVal)},
        (match collapseLhs1 E reg sv ret r q with
          | .error e => .error e
          | .ok (l, q') => .ok ((m, w) :: l, q') : Except PyErr (List (Key × LVal) × List (Key × LVal))) = .ok p →
        ∃ l q', collapseLhs1 E reg sv ret r q = .ok (l, q') ∧ p = ((m, w) :: l, q') := by
      intro w q h
      rcases hc : collapseLhs1 E reg sv ret r q with e | ⟨l, q'⟩
      · rw [hc] at h; cases h
      · rw [hc] at h; cases h; exact ⟨l, q', rfl, rfl⟩
    have go : ∀ {w : LVal} {q : List (Key × LVal)}, klook k q = some (.chunk c2) → (k, LVal.chunk c1) ∈ r →
        (match collapseLhs1 E reg sv ret r q with
          | .error e => .error e
          | .ok (l, q') => .ok ((m, w) :: l, q') : Except PyErr (List (Key × LVal) × List (Key × LVal))) = .ok p →
        ∃ a c, mergeSlots c1.slots c2.slots = .ok a ∧ mkChunk E reg c1.typ a = .ok c ∧ (k, LVal.chunk c) ∈ p.1 := by
      intro w q hq hmr h
      obtain ⟨l, q', hl, rfl⟩ := rest h
      obtain ⟨a, c, h1, h2, h3⟩ := ih hl hnd.2 hmr hq
      exact ⟨a, c, h1, h2, List.mem_cons_of_mem _ h3⟩
    simp only [collapseLhs1] at h
    rcases List.mem_cons.1 hm with e | hmr
    · cases e
      rw [if_neg (by rw [hk]; decide), if_pos hk, h2] at h
      simp only at h
      rw [if_neg (by simp [hret])] at h
      rcases hms : mergeSlots c1.slots c2.slots with e | a
      · rw [hms] at h; cases h
      · rw [hms] at h
        simp only at h
        rcases hc : mkChunk E reg c1.typ a with e | c
        · rw [hc] at h; cases h
        · rw [hc] at h
          obtain ⟨l, q', _, rfl⟩ := rest h
          exact ⟨a, c, rfl, hc, List.mem_cons_self⟩
    · have hne : k ≠ m := by rintro rfl; exact hnd.1 (List.mem_map.2 ⟨_, hmr, rfl⟩)
      have hdel : klook k (kdel m p2) = some (.chunk c2) := by rw [klook_kdel_ne hne]; exact h2
      by_cases hq : m.code = '?'
      · rw [if_pos hq] at h; exact go h2 hmr h
      · rw [if_neg hq] at h
        by_cases he : m.code = '='
        · rw [if_pos he] at h
          rcases hkm : klook m p2 with _ | w
          · rw [hkm] at h; exact go h2 hmr h
          · rw [hkm] at h
            cases v with
            | dict d => simp at h
            | chunk a1 =>
              cases w with
              | dict d => simp at h
              | chunk a2 =>
                simp only at h
                by_cases hr : ((alook m.name sv).isNone && ret == some m.name) = true
                · rw [if_pos hr] at h; exact go hdel hmr h
                · rw [if_neg hr] at h
                  rcases hms : mergeSlots a1.slots a2.slots with e | d
                  · rw [hms] at h; cases h
                  · rw [hms] at h
                    simp only at h
                    rcases hc : mkChunk E reg a1.typ d with e | c
                    · rw [hc] at h; cases h
                    · rw [hc] at h; exact go hdel hmr h
        · rw [if_neg he] at h; cases h

/-- The second loop adds the conditions that are left of the second rule. -/
theorem collapseLhs2_adds {E : PyEnv} {reg : Reg} {rhs1 : List (Key × RVal)} {sv : SlotVals} {ret : Option String} {k : Key} :
    ∀ {p2 p1 l : List (Key × LVal)}, collapseLhs2 E reg (.ok rhs1) sv ret p2 p1 = .ok l → (p2.map Prod.fst).Nodup →
      (∀ c2, k.code = '=' → ret ≠ some k.name → (k, LVal.chunk c2) ∈ p2 →
        ∃ c, mkChunk E reg c2.typ (c2.slots.map (fun p => (p.1, slotArg p.2))) = .ok c ∧ klook k l = some (.chunk c)) ∧
      (∀ d2, k.code = '?' → ¬ ActsUpon rhs1 k.name → (k, LVal.dict d2) ∈ p2 → (d2.map Prod.fst).Nodup →
        ∃ d', klook k l = some (.dict d') ∧ Answers d2 d') := by
  intro p2
  induction p2 with
  | nil => intro p1 l _ _; simp
  | cons x r ih =>
    obtain ⟨m, u⟩ := x
    intro p1 l h hnd
    simp only [List.map_cons, List.nodup_cons] at hnd
    have absent : k = m → ∀ a, (k, a) ∉ r := by
      rintro rfl a ha; exact hnd.1 (List.mem_map.2 ⟨_, ha, rfl⟩)
    -- the rest of the loop when the condition is not the first one
    have later : ∀ {q : List (Key × LVal)}, collapseLhs2 E reg (.ok rhs1) sv ret r q = .ok l → k ≠ m →
        (∀ c2, k.code = '=' → ret ≠ some k.name → (k, LVal.chunk c2) ∈ (m, u) :: r →
          ∃ c, mkChunk E reg c2.typ (c2.slots.map (fun p => (p.1, slotArg p.2))) = .ok c ∧ klook k l = some (.chunk c)) ∧
        (∀ d2, k.code = '?' → ¬ ActsUpon rhs1 k.name → (k, LVal.dict d2) ∈ (m, u) :: r → (d2.map Prod.fst).Nodup →
          ∃ d', klook k l = some (.dict d') ∧ Answers d2 d') := by
      intro q hq hne
      obtain ⟨i1, i2⟩ := ih hq hnd.2
      refine ⟨fun c2 hc hr hm => ?_, fun d2 hc hr hm => ?_⟩
      · rcases List.mem_cons.1 hm with e | hm
        · cases e; exact absurd rfl hne
        · exact i1 c2 hc hr hm
      · rcases List.mem_cons.1 hm with e | hm
        · cases e; exact absurd rfl hne
        · exact i2 d2 hc hr hm
    simp only [collapseLhs2, Except.bind] at h
    by_cases hkm : k = m
    · subst hkm
      have absent' := absent rfl
      refine ⟨fun c2 hc hr hm => ?_, fun d2 hc hr hm hn2 => ?_⟩
      · rcases List.mem_cons.1 hm with e | hm
        · cases e
          rw [if_neg (by rw [hc]; decide), if_pos hc] at h
          simp only at h
          rw [if_neg (by simp [hr])] at h
          rcases hcm : mkChunk E reg c2.typ (c2.slots.map (fun p => (p.1, slotArg p.2))) with e | c
          · rw [hcm] at h; cases h
          · rw [hcm] at h
            refine ⟨c, hcm, (collapseLhs2_keeps h).1 _ (by rw [hc]; decide) (by rw [klook_kset, if_pos rfl]) absent'⟩
        · exact absurd hm (absent' _)
      · rcases List.mem_cons.1 hm with e | hm
        · cases e
          rw [if_pos hc] at h
          rcases ha : actsOn k.name rhs1 with e | b
          · rw [ha] at h; cases h
          rw [ha] at h
          cases b with
          | true => exact absurd (actsOn_true ha) hr
          | false =>
            have noMore : ∀ d, (k, LVal.dict d) ∈ r → (d.map Prod.fst).Nodup ∧
                ∀ a x y, alook a d2 = some x → (a, y) ∈ d → x = y ∨ ActsUpon rhs1 k.name := fun d hd => absurd hd (absent' _)
            rcases hk1 : klook k p1 with _ | w
            · rw [hk1] at h
              exact (collapseLhs2_keeps h).2 d2 d2 (by rw [klook_kset, if_pos rfl]) hc (fun _ _ h => h) noMore
            · rw [hk1] at h
              cases w with
              | chunk c => simp at h
              | dict d1 =>
                refine (collapseLhs2_keeps h).2 d2 _ (by rw [klook_kset, if_pos rfl]) hc (fun a x hx => ?_) noMore
                rw [alook_update a d2 _ hn2, hx]; rfl
        · exact absurd hm (absent' _)
    · by_cases hq : m.code = '?'
      · rw [if_pos hq] at h
        rcases ha : actsOn m.name rhs1 with e | b
        · rw [ha] at h; cases h
        rw [ha] at h
        cases b with
        | true => exact later h hkm
        | false =>
          cases u with
          | chunk c => simp at h
          | dict d2 =>
            rcases hk1 : klook m p1 with _ | w
            · rw [hk1] at h; exact later h hkm
            · rw [hk1] at h
              cases w with
              | chunk c => simp at h
              | dict d1 => exact later h hkm
      · rw [if_neg hq] at h
        by_cases he : m.code = '='
        · rw [if_pos he] at h
          cases u with
          | dict d => simp at h
          | chunk c2 =>
            simp only at h
            by_cases hr : ((alook m.name sv).isNone && ret == some m.name) = true
            · rw [if_pos hr] at h; exact later h hkm
            · rw [if_neg hr] at h
              rcases hcm : mkChunk E reg c2.typ (c2.slots.map (fun p => (p.1, slotArg p.2))) with e | c
              · rw [hcm] at h; cases h
              · rw [hcm] at h; exact later h hkm
        · rw [if_neg he] at h; cases h

theorem renameSlot_form {E : PyEnv} {name : String} {used : List String} {s : Slot} {y : VarVal}
    (h : renameSlot E name used s = .ok y) :
    y = ⟨(splitting s).values, if optStrTruthy (splitting s).vars then some (ruleVar name ((splitting s).vars.getD "")) else Option.none,
      (splitting s).negvalues, E.ord ((splitting s).negvars.map (ruleVar name)).dedup⟩ := by
  simp only [renameSlot] at h
  split at h
  · cases h
  · split at h
    · cases h
    · cases h; rfl

theorem ruleVar_ne (name v : String) : ruleVar name v ≠ "" := by
  intro h
  have := congrArg String.length h
  simp [ruleVar] at this

/-- A slot that is true after renaming is true before. -/
theorem slotTrue_rename {E : PyEnv} {name : String} {used : List String} {σ : String → Option Val} {s : Slot} {y : VarVal} {w : Val}
    (h : renameSlot E name used s = .ok y) (ht : SlotTrue σ (.vv y) w) : SlotTrue (fun n => σ (ruleVar name n)) s w := by
  cases s with
  | empty => trivial
  | vv x =>
    have e := renameSlot_form h
    subst e
    obtain ⟨t1, t2, t3, t4⟩ := ht
    refine ⟨fun z hz hne => ?_, fun z v hz hv => ?_, t3, t4⟩
    · refine t1 (ruleVar name z) ?_ (ruleVar_ne name z)
      simp only [splitting, hz, optStrTruthy, Option.getD_some]
      rw [if_pos (by simpa using hne)]
    · refine t2 (ruleVar name z) v ?_ hv
      rw [(E.perm _).mem_iff, List.mem_dedup]
      exact List.mem_map.2 ⟨z, hz, rfl⟩

theorem plain_rename {E : PyEnv} {name : String} {used : List String} {s : Slot} {y : VarVal}
    (h : renameSlot E name used s = .ok y) (hs : PlainSlotVals s) : PlainSlotVals (.vv y) := by
  intro x hx
  cases hx
  simp only [renameSlot] at h
  split at h
  · cases h
  · split at h
    · cases h
    · cases h
      cases s with
      | empty => simp [splitting, PlainVal]
      | vv x => exact hs x rfl

/-- A chunk made anew keeps its slots. -/
theorem mkChunk_again {E : PyEnv} {reg : Reg} (hr : RegOk E reg) {c2 c : Chunk} (hn : Named c2)
    (h : mkChunk E reg c2.typ (c2.slots.map (fun p => (p.1, slotArg p.2))) = .ok c) {n : String} {y : VarVal}
    (hm : (n, SlotOf.vv y) ∈ c2.slots) : (n, SlotOf.vv y) ∈ c.slots := by
  have hk : (c2.slots.map (fun p => (p.1, slotArg p.2))).map Prod.fst = c2.slots.map Prod.fst := by rw [List.map_map]; rfl
  obtain ⟨_, _, vals, hv, hal⟩ := mkChunk_ok hr (by rw [hk]; exact hn) h
  obtain ⟨hvk, hva⟩ := convertAll_ok hv
  obtain ⟨x, hx, hxv⟩ := hva n (slotArg (.vv y)) (List.mem_map.2 ⟨_, hm, rfl⟩)
  simp only [slotArg, SlotArg.convert, Except.ok.injEq] at hx
  subst hx
  apply alook_mem
  rw [hal n, alook_of_mem (a := SlotOf.vv y)]
  · rfl
  · rw [List.map_map]
    have : (Prod.fst ∘ fun p : String × VarVal => (p.1, (SlotOf.vv p.2 : Slot))) = Prod.fst := rfl
    rw [this, hvk, hk]; exact hn
  · exact List.mem_map.2 ⟨_, hxv, rfl⟩

section
variable {P : Py} {reg : Reg} {name2 : String} {l1 l2 lhs : List (Key × LVal)} {r1 r2 rhs : List (Key × RVal)}
  {sv : SlotVals} {bufs : List (String × CBuf)}

open Classical in
/-- The assignment that makes the second rule's conditions true. -/
noncomputable def secondAssign (D : Val → Prop) (name2 : String) (st : MatchSt) (l2 : List (Key × LVal)) (σ : String → Option Val) :
    String → Option Val := fun n => if Tested l2 n then σ n else pull D st.matched st.valued σ (ruleVar name2 n)

/-- If the conditions of the compiled rule hold, so do those of the second rule that the first one leaves alone. -/
theorem Compiling.demand2 (C : Compiling P reg l1 r1 l2 r2 name2 sv bufs lhs rhs) (cf : P.H.CollisionFree) (hr : RegOk P.toPyEnv reg)
    (hd1 : DictBody ⟨.ok l1, .ok r1⟩) (hd2 : DictBody ⟨.ok l2, .ok r2⟩) (g1 : GoodRule reg l1 r1) (g2 : GoodRule reg l2 r2)
    (hq2 : QueriesAreDicts l2) (hN : PlainNames l2)
    (hD : DataMentioned l2 sv) (hP : GoodPatterns l2) {D : Val → Prop} {faces : Faces} (hB : GoodBuffers D faces l2)
    {l : List (Key × LVal)} (hl : LeftAlone l1 r1 sv l2 l)
    {σ : String → Option Val} (hσ : RuleHolds D faces lhs σ) : RuleHolds D faces l (secondAssign D name2 C.st l2 σ) := by
  have snd := C.sound hr g2 hD
  obtain ⟨k1, k2, k3, k4⟩ := collapseLhs1_keeps C.hp
  have hsub := (collapseLhs1_ok C.hp).2.2
  have n1' : (C.l1'.map Prod.fst).Nodup := by rw [keys_mapped C.hl1]; exact (hd1.lhs l1 rfl).1
  have n2' : (C.l2'.map Prod.fst).Nodup := by rw [keys_mapped C.hl2, keys_mapped C.hm2]; exact (hd2.lhs l2 rfl).1
  have np1 : (C.p.1.map Prod.fst).Nodup := by rw [(collapseLhs1_ok C.hp).1]; exact n1'
  have np2 : (C.p.2.map Prod.fst).Nodup := (hsub.map Prod.fst).nodup n2'
  refine ⟨fun y v hv => ?_, ?_⟩
  · simp only [secondAssign] at hv
    split at hv
    · exact hσ.data _ _ hv
    · exact pull_data hσ.data _ _ hv
  rintro ⟨⟨code, b⟩, v⟩ hm
  rcases hl _ _ hm with ⟨hc, hv2, hact⟩ | ⟨hc, hret, c, c2, rfl, hv2, hslots, halone⟩ <;> simp only at hc <;> subst hc
  · -- queries
    obtain ⟨q, d0, rfl, hnd⟩ := hq2 b v hv2
    generalize q :: d0 = d at *
    obtain ⟨w, hw, hfw⟩ := mapped_mem C.hm2 hv2
    have := mapLVal_query rfl hfw
    subst this
    obtain ⟨u, hu, hfu⟩ := mapped_mem C.hl2 hw
    have := mapLVal_query rfl hfu
    subst this
    obtain ⟨d', hk, hans⟩ := (collapseLhs2_adds (k := ⟨'?', b⟩) C.hlhs np2).2 d rfl
      (fun h => hact (actsUpon_unmapped C.hr1 h)) (k3 _ _ hu (Or.inl rfl)) hnd
    have htrue := hσ.conds _ (mem_of_klook hk)
    cases htrue with
    | query hall =>
    exact .query (fun a x hx => hall a x (alook_mem (hans a x (alook_of_mem hnd hx))))
  · -- a test
    have hret' : C.sc.retrieval ≠ some b := by
      intro e
      rcases scan_retrieval C.hsc e with h | ⟨d, c, h⟩
      · cases h
      · exact hret d c h
    obtain ⟨c2', e, hk2⟩ := g2.lhs _ _ hv2 (by simp)
    cases e
    obtain ⟨w, hw, hfw⟩ := mapped_mem C.hm2 hv2
    obtain ⟨cr, rfl⟩ : ∃ cr, w = .chunk cr := by
      cases w with
      | chunk c => exact ⟨c, rfl⟩
      | dict d =>
        simp only [mapLVal] at hfw
        rw [if_pos (by decide)] at hfw
        simp only [Except.map] at hfw
        split at hfw <;> cases hfw
    obtain ⟨_, e, hmr⟩ := mapLVal_chunk rfl hfw
    cases e
    obtain ⟨u, hu, hfu⟩ := mapped_mem C.hl2 hw
    obtain ⟨cs, rfl⟩ : ∃ cs, u = .chunk cs := by
      cases u with
      | chunk c => exact ⟨c, rfl⟩
      | dict d =>
        simp only [mapLVal] at hfu
        rw [if_pos (by decide)] at hfu
        simp only [Except.map] at hfu
        split at hfu <;> cases hfu
    obtain ⟨_, e, hms⟩ := mapLVal_chunk rfl hfu
    cases e
    obtain ⟨tr, nr, hr3, _, _⟩ := mapChunk_ok hr hk2.1 hmr
    obtain ⟨ts, ns, hs3, _, _⟩ := mapChunk_ok hr nr hms
    have hb2 : Tested l2 b := ⟨c2, hv2⟩
    -- the chunk in the compiled rule has the slots in question
    obtain ⟨cm, hcm, hkeep⟩ : ∃ cm, (⟨⟨'=', b⟩, .chunk cm⟩ : Key × LVal) ∈ lhs ∧
        ∀ n x y, (n, SlotOf.vv x) ∈ c.slots → (n, SlotOf.vv y) ∈ cs.slots → (n, SlotOf.vv y) ∈ cm.slots := by
      by_cases ht : (⟨'=', b⟩ : Key) ∈ l1.map Prod.fst
      · obtain ⟨⟨kk, v1⟩, hv1, hkk⟩ := List.mem_map.1 ht
        simp only at hkk
        subst hkk
        obtain ⟨c1, rfl, hk1⟩ := g1.lhs _ _ hv1 (by simp)
        obtain ⟨w1, hw1, hfw1⟩ := mapped_mem C.hl1 hv1
        obtain ⟨c1', rfl⟩ : ∃ c1', w1 = .chunk c1' := by
          cases w1 with
          | chunk c => exact ⟨c, rfl⟩
          | dict d =>
            simp only [mapLVal] at hfw1
            rw [if_pos (by decide)] at hfw1
            simp only [Except.map] at hfw1
            split at hfw1 <;> cases hfw1
        obtain ⟨_, e, hm1⟩ := mapLVal_chunk rfl hfw1
        cases e
        obtain ⟨_, n1, _, h14, _⟩ := mapChunk_ok hr hk1.1 hm1
        obtain ⟨a, cm, hmg, hmk, hin⟩ := collapseLhs1_merges (k := ⟨'=', b⟩) rfl hret' C.hp n1' hw1 (klook_of_mem n2' hu)
        refine ⟨cm, ?_, ?_⟩
        · refine mem_of_klook ((collapseLhs2_keeps (k := ⟨'=', b⟩) C.hlhs).1 _ (by simp) (klook_of_mem np1 hin)
            (fun a => k2 _ a rfl (List.mem_map.2 ⟨_, hw1, rfl⟩)))
        · intro n x y hx hy
          obtain ⟨bb, rfl, hf⟩ := mergeSlots_ok hmg
          have hk : bb.map Prod.fst = cs.slots.map Prod.fst := forall₂_names hf (fun _ _ h => h.1)
          obtain ⟨_, _, h3, _⟩ := mkChunk_parts hr (by rw [hk]; exact ns) hmk
          obtain ⟨⟨n', z⟩, hz, hn', t, ht, hzm⟩ := forall₂_left hf hy
          simp only at hn' hzm ht
          subst hn' hzm
          have : mergeParts t (.vv y) = y := by
            rcases h14 _ _ (alook_mem ht) with e | ⟨s, y', hs, hsub', e⟩
            · subst e; rfl
            · cases s with
              | vv x' => exact absurd hs (halone c1 _ x x' hv1 hx)
              | empty =>
                subst e
                have o1 : P.ord [] = [] := by simpa using P.perm []
                have o2 : P.vord [] = [] := by simpa using P.vperm []
                simp only [substSlot, splitting, optStrTruthy, List.filter_nil, List.map_nil, List.dedup_nil, List.filterMap_nil,
                  List.foldl_nil, o1, o2] at hsub'
                simp at hsub'
                subst hsub'
                rfl
          rw [this] at hz
          exact h3 _ _ hz
      · obtain ⟨cm, hmk, hk⟩ := (collapseLhs2_adds (k := ⟨'=', b⟩) C.hlhs np2).1 cs rfl hret'
          (k3 _ _ hu (Or.inr (by rw [keys_mapped C.hl1]; exact ht)))
        exact ⟨cm, mem_of_klook hk, fun n x y _ hy => mkChunk_again hr ns hmk hy⟩
    have htrue := hσ.conds _ hcm
    cases htrue with
    | test hface hdata hcond hself =>
    rename_i face d rest
    refine .test hface hdata ?_ ?_
    · rw [condHolds_iff] at hcond ⊢
      intro n s w hs hw
      cases s with
      | empty => trivial
      | vv x =>
      have hs2 := hslots _ _ hs
      obtain ⟨y, hy, hys⟩ := hr3 n _ hs2
      obtain ⟨z, hz, hzs⟩ := hs3 n _ hys
      have hDw : D w := (hB.chunk b c2 face d rest hv2 hface hdata).2.2.1 n _ w hs2 hw
      have hpl : PlainSlotVals (.vv x) := by
        intro x' hx
        cases hx
        have h1 := (hP b c2 hv2).2 n x hs2
        have h2 := hD _ (.test hv2 hs2)
        exact ⟨h1.1, h2.2, h1.2⟩
      refine slotTrue_congr (slotTrue_rename hy (slotTrue_subst cf snd.vars snd.vals (plain_rename hy hpl) hz
        (hcond n _ w (hkeep n x z hs hzs) hw) hDw)) ?_
      intro x' y' hx hy'
      cases hx
      simp only [secondAssign]
      rw [if_neg]
      intro ht
      rcases hy' with hy' | hy'
      · exact (hN y' ht).1 ⟨b, c2, n, x, hv2, hs2, hy'⟩
      · exact (hN y' ht).2 ⟨b, c2, n, x, hv2, hs2, hy'⟩
    · simp only [secondAssign, if_pos hb2]; exact hself

end

end Verif
