import Verif.Spec.ChunkType
import Verif.Lemmas.Match
/-! # Lemmas on chunk types -/
namespace Verif
open Verif.Spec

theorem fieldLe_trans (a b c : String) : fieldLe a b = true → fieldLe b c = true → fieldLe a c = true := by
  simp only [fieldLe, decide_eq_true_eq]; exact String.le_trans

theorem fieldLe_total (a b : String) : (fieldLe a b || fieldLe b a) = true := by
  simp only [fieldLe, Bool.or_eq_true, decide_eq_true_eq]; exact String.le_total _ _

theorem append_us_inj {a b : String} (h : a ++ "_" = b ++ "_") : a = b := (String.append_left_inj "_").mp h

theorem str_lt_of_le_of_ne {a b : String} (h : a ≤ b) (hne : a ≠ b) : a < b := by
  rw [← String.not_le]; exact fun h' => hne (String.le_antisymm h h')

theorem mem_sortFields {l : List String} {f : String} : f ∈ sortFields l ↔ f ∈ l :=
  (List.mergeSort_perm l fieldLe).mem_iff

theorem nodup_sortFields {l : List String} : (sortFields l).Nodup ↔ l.Nodup :=
  (List.mergeSort_perm l fieldLe).nodup_iff

theorem sorted_sortFields {l : List String} (h : l.Nodup) : FieldsSorted (sortFields l) := by
  have h1 := List.pairwise_mergeSort fieldLe_trans fieldLe_total l
  have h2 : (sortFields l).Nodup := nodup_sortFields.mpr h
  refine (h1.and h2).imp ?_
  rintro a b ⟨hle, hne⟩
  simp only [fieldLe, decide_eq_true_eq] at hle
  exact str_lt_of_le_of_ne hle (fun h => hne (append_us_inj h))

theorem FieldsSorted.nodup {l : List String} (h : FieldsSorted l) : l.Nodup :=
  h.imp (fun {a b} hab => by rintro rfl; exact String.lt_irrefl _ hab)

/-- The loop over the parents. -/
theorem inheritLoop_ok {reg : Reg} : ∀ (incl fields inh r : List String), (∀ f ∈ inh, f ∈ fields) →
    inheritLoop reg fields inh incl = .ok r →
    (∀ f, f ∈ r ↔ f ∈ fields ∨ ∃ p ∈ incl, HasField reg p f) ∧ (incl = [] → r = fields) ∧ (incl ≠ [] → FieldsSorted r) ∧
      (∀ p ∈ incl, ∃ fs, alook p reg = some fs) := by
  intro incl
  induction incl with
  | nil => intro fields inh r _ h; simp only [inheritLoop, Except.ok.injEq] at h; subst h; simp
  | cons p ps ih =>
    intro fields inh r hsub h
    simp only [inheritLoop] at h
    cases hp : alook p reg with
    | none => rw [hp] at h; cases h
    | some fs =>
      rw [hp] at h
      simp only at h
      obtain ⟨h1, h2, h3, h4⟩ := ih _ _ r (by
        intro f hf; rw [mem_sortFields, List.mem_dedup]; exact List.mem_append_right _ hf) h
      refine ⟨?_, by simp, ?_, ?_⟩
      · intro f
        rw [h1, mem_sortFields, List.mem_dedup]
        simp only [List.mem_append, List.mem_cons, exists_eq_or_imp]
        constructor
        · rintro ((hf | hf | hf) | hf)
          · exact .inl hf
          · exact .inl (hsub f hf)
          · exact .inr (.inl ⟨fs, hp, hf⟩)
          · exact .inr (.inr hf)
        · rintro (hf | ⟨fs', he, hf⟩ | hf)
          · exact .inl (.inl hf)
          · rw [hp] at he; cases he; exact .inl (.inr (.inr hf))
          · exact .inr hf
      · intro _
        cases ps with
        | nil => rw [h2 rfl]; exact sorted_sortFields (List.nodup_dedup _)
        | cons => exact h3 (by simp)
      · intro q hq
        simp only [List.mem_cons] at hq
        rcases hq with rfl | hq
        · exact ⟨fs, hp⟩
        · exact h4 q hq

theorem inheritLoop_total {reg : Reg} : ∀ (incl fields inh : List String),
    (∀ p ∈ incl, ∃ fs, alook p reg = some fs) → ∃ r, inheritLoop reg fields inh incl = .ok r := by
  intro incl
  induction incl with
  | nil => intro fields inh _; exact ⟨_, rfl⟩
  | cons p ps ih =>
    intro fields inh h
    obtain ⟨fs, hp⟩ := h p (by simp)
    simp only [inheritLoop, hp]
    exact ih _ _ (fun q hq => h q (by simp [hq]))

theorem inheritLoop_err {reg : Reg} : ∀ (incl fields inh : List String) (e : PyErr),
    inheritLoop reg fields inh incl = .error e → e = .actr := by
  intro incl
  induction incl with
  | nil => intro fields inh e h; simp [inheritLoop] at h
  | cons p ps ih =>
    intro fields inh e h
    simp only [inheritLoop] at h
    cases hp : alook p reg with
    | none => rw [hp] at h; simp at h; exact h.symm
    | some fs => rw [hp] at h; exact ih _ _ _ h

theorem isText_iff {a : FieldArg} {s : String} : a.isText s = true ↔ a = .text s := by
  cases a <;> simp [FieldArg.isText]

theorem special_iff {name : String} {a : FieldArg} :
    specialTypes.any (fun t => t.1 == name && !a.isText t.2) = true ↔ SpecialMismatch name a := by
  simp only [List.any_eq_true, Bool.and_eq_true, beq_iff_eq, Bool.not_eq_true', SpecialMismatch]
  constructor
  · rintro ⟨⟨n, s⟩, hm, rfl, h⟩
    exact ⟨s, hm, fun h' => by rw [isText_iff.mpr h'] at h; cases h⟩
  · rintro ⟨s, hm, h⟩
    refine ⟨(name, s), hm, rfl, ?_⟩
    cases h' : a.isText s
    · rfl
    · exact absurd (isText_iff.mp h') h

theorem isa_dead (l : List String) : l.any (fun n => n ++ "_" == "ISA" || n ++ "_" == "isa") = false := by
  rw [List.any_eq_false]
  intro n _ h
  simp only [Bool.or_eq_true, beq_iff_eq] at h
  rcases h with h | h
  · have := congrArg (fun s => s.toList.getLast?) h
    simp [String.toList_append] at this
  · have := congrArg (fun s => s.toList.getLast?) h
    simp [String.toList_append] at this

/-- The cases of `chunktype`. -/
theorem chunktype_eq (E : PyEnv) (reg : Reg) (name : String) (a : FieldArg) (incl : List String) :
    (SpecialMismatch name a → chunktype E reg name a incl = .error .actr) ∧
    (¬ SpecialMismatch name a → chunktype E reg name a incl =
      match inheritLoop reg (sortFields a.list) [] incl with
      | .error e => .error e
      | .ok fs => if namedtupleOk E name fs then .ok (aset name fs reg) else .error .value) := by
  constructor
  · intro h; simp [chunktype, special_iff.mpr h]
  · intro h
    have : specialTypes.any (fun t => t.1 == name && !a.isText t.2) = false := by
      cases h' : specialTypes.any (fun t => t.1 == name && !a.isText t.2)
      · rfl
      · exact absurd (special_iff.mp h') h
    simp only [chunktype, this, isa_dead]
    rfl

/-- Success of `chunktype`. -/
theorem chunktype_ok {E : PyEnv} {reg reg' : Reg} {name : String} {a : FieldArg} {incl : List String}
    (h : chunktype E reg name a incl = .ok reg') :
    ∃ fs, reg' = aset name fs reg ∧ FieldsSorted fs ∧ (∀ f, f ∈ fs ↔ f ∈ a.list ∨ ∃ p ∈ incl, HasField reg p f) ∧
      (∀ f ∈ fs, E.fieldOk f = true) ∧ E.typeOk name = true ∧ (∀ p ∈ incl, ∃ fs, alook p reg = some fs) ∧
      ¬ SpecialMismatch name a ∧ (incl = [] → a.list.Nodup) := by
  by_cases hs : SpecialMismatch name a
  · rw [(chunktype_eq E reg name a incl).1 hs] at h; cases h
  · rw [(chunktype_eq E reg name a incl).2 hs] at h
    cases hi : inheritLoop reg (sortFields a.list) [] incl with
    | error e => rw [hi] at h; cases h
    | ok fs =>
      rw [hi] at h
      simp only at h
      split at h
      · next hn =>
        simp only [Except.ok.injEq] at h
        simp only [namedtupleOk, Bool.and_eq_true, List.all_eq_true, decide_eq_true_eq] at hn
        obtain ⟨h1, h2, h3, h4⟩ := inheritLoop_ok incl _ [] fs (by simp) hi
        refine ⟨fs, h.symm, ?_, ?_, hn.1.2, hn.1.1, h4, hs, ?_⟩
        · by_cases hc : incl = []
          · have := h2 hc
            have hnd := hn.2
            rw [this] at hnd
            rw [this]; exact sorted_sortFields (nodup_sortFields.mp hnd)
          · exact h3 hc
        · intro f; rw [h1, mem_sortFields]
        · intro hc
          have hnd := hn.2
          rw [h2 hc] at hnd; exact nodup_sortFields.mp hnd
      · cases h

/-- `chunktype` succeeds whenever its arguments are right. -/
theorem chunktype_total {E : PyEnv} {reg : Reg} {name : String} {a : FieldArg} {incl : List String}
    (hs : ¬ SpecialMismatch name a) (hp : ∀ p ∈ incl, ∃ fs, alook p reg = some fs) (ht : E.typeOk name = true)
    (hf : ∀ f, (f ∈ a.list ∨ ∃ p ∈ incl, HasField reg p f) → E.fieldOk f = true) (hn : incl = [] → a.list.Nodup) :
    ∃ reg', chunktype E reg name a incl = .ok reg' := by
  rw [(chunktype_eq E reg name a incl).2 hs]
  obtain ⟨r, hr⟩ := inheritLoop_total incl (sortFields a.list) [] hp
  obtain ⟨h1, h2, h3, h4⟩ := inheritLoop_ok incl _ [] r (by simp) hr
  have : namedtupleOk E name r = true := by
    simp only [namedtupleOk, Bool.and_eq_true, List.all_eq_true, decide_eq_true_eq]
    refine ⟨⟨ht, ?_⟩, ?_⟩
    · intro f hfr
      apply hf
      rw [h1, mem_sortFields] at hfr; exact hfr
    · by_cases hc : incl = []
      · rw [h2 hc]; exact nodup_sortFields.mpr (hn hc)
      · exact (h3 hc).nodup
  simp [hr, this]

/-- The types of a registry have sorted slots and legal names. -/
def RegOk (E : PyEnv) (reg : Reg) : Prop :=
  ∀ t fs, alook t reg = some fs → FieldsSorted fs ∧ (∀ f ∈ fs, E.fieldOk f = true) ∧ E.typeOk t = true

theorem regOk_chunktype {E : PyEnv} {reg reg' : Reg} {name : String} {a : FieldArg} {incl : List String}
    (h : chunktype E reg name a incl = .ok reg') (hr : RegOk E reg) : RegOk E reg' := by
  obtain ⟨fs, rfl, hs, _, hf, ht, _⟩ := chunktype_ok h
  intro t fs' hl
  rw [alook_aset] at hl
  split at hl
  · next he => simp only [Option.some.injEq] at hl; subst hl; subst he; exact ⟨hs, hf, ht⟩
  · exact hr t fs' hl

theorem convertAll_ok {E : PyEnv} : ∀ {dict : List (String × SlotArg)} {vals : List (String × VarVal)},
    convertAll E dict = .ok vals → vals.map Prod.fst = dict.map Prod.fst ∧
      ∀ f a, (f, a) ∈ dict → ∃ x, a.convert E = .ok x ∧ (f, x) ∈ vals := by
  intro dict
  induction dict with
  | nil => intro vals h; simp only [convertAll, Except.ok.injEq] at h; subst h; simp
  | cons d r ih =>
    obtain ⟨n, a⟩ := d
    intro vals h
    simp only [convertAll] at h
    cases ha : a.convert E with
    | error e => rw [ha] at h; cases h
    | ok x =>
      rw [ha] at h
      cases hr : convertAll E r with
      | error e => rw [hr] at h; cases h
      | ok xs =>
        rw [hr] at h
        simp only [Except.ok.injEq] at h
        subst h
        obtain ⟨h1, h2⟩ := ih hr
        refine ⟨by simp [h1], ?_⟩
        intro f b hm
        simp only [List.mem_cons, Prod.mk.injEq] at hm
        rcases hm with ⟨rfl, rfl⟩ | hm
        · exact ⟨x, ha, by simp⟩
        · obtain ⟨y, hy, hm⟩ := h2 f b hm
          exact ⟨y, hy, by simp [hm]⟩

theorem convertAll_err {E : PyEnv} {dict : List (String × SlotArg)} {e : PyErr}
    (h : convertAll E dict = .error e) : ∃ f a, (f, a) ∈ dict ∧ a.convert E = .error e := by
  induction dict with
  | nil => simp [convertAll] at h
  | cons d r ih =>
    obtain ⟨n, a⟩ := d
    simp only [convertAll] at h
    cases ha : a.convert E with
    | error e' => rw [ha] at h; simp only [Except.error.injEq] at h; subst h; exact ⟨n, a, by simp, ha⟩
    | ok x =>
      rw [ha] at h
      cases hr : convertAll E r with
      | error e' =>
        rw [hr] at h; simp only [Except.error.injEq] at h; subst h
        obtain ⟨f, b, hm, hb⟩ := ih hr
        exact ⟨f, b, by simp [hm], hb⟩
      | ok xs => rw [hr] at h; cases h

theorem mem_keys_iff {α : Type} {f : String} {l : List (String × α)} : f ∈ l.map Prod.fst ↔ ∃ a, alook f l = some a := by
  constructor
  · intro h
    cases ha : alook f l with
    | some a => exact ⟨a, rfl⟩
    | none =>
      simp only [List.mem_map] at h
      obtain ⟨⟨g, a⟩, hm, rfl⟩ := h
      exact absurd hm (alook_none_iff.mp ha a)
  · rintro ⟨a, h⟩
    exact List.mem_map.mpr ⟨_, alook_mem h, rfl⟩

theorem alook_append {α : Type} (f : String) (l m : List (String × α)) :
    alook f (l ++ m) = (alook f l).or (alook f m) := by
  induction l with
  | nil => rfl
  | cons x r ih =>
    obtain ⟨g, a⟩ := x
    simp only [List.cons_append, alook]
    by_cases h : g = f <;> simp [h, ih]

/-- Building the named tuple. -/
theorem buildSlots_spec {fields : List String} {kw : Slots} :
    ((∀ f, f ∈ kw.map Prod.fst ↔ f ∈ fields) →
      ∃ sl, buildSlots fields kw = .ok sl ∧ sl.map Prod.fst = fields ∧ ∀ f ∈ fields, fields.Nodup → alook f sl = alook f kw) ∧
    ((¬ ∀ f, f ∈ kw.map Prod.fst ↔ f ∈ fields) → buildSlots fields kw = .error .type) := by
  have hcond : (kw.all (fun p => fields.contains p.1) && fields.all (fun f => (alook f kw).isSome)) = true ↔
      ∀ f, f ∈ kw.map Prod.fst ↔ f ∈ fields := by
    simp only [Bool.and_eq_true, List.all_eq_true, List.contains_iff_mem, Option.isSome_iff_exists]
    constructor
    · rintro ⟨h1, h2⟩ f
      constructor
      · intro h
        obtain ⟨⟨g, a⟩, hm, rfl⟩ := List.mem_map.mp h
        exact h1 _ hm
      · intro h; exact mem_keys_iff.mpr (h2 f h)
    · intro h
      refine ⟨fun p hp => (h p.1).mp (List.mem_map_of_mem hp), fun f hf => mem_keys_iff.mp ((h f).mpr hf)⟩
  constructor
  · intro h
    refine ⟨_, by simp only [buildSlots, hcond.mpr h, if_true]; rfl, ?_, ?_⟩
    · have : ∀ l : List String, (∀ f ∈ l, f ∈ fields) →
          (l.filterMap (fun f => (alook f kw).map (fun s => (f, s)))).map Prod.fst = l := by
        intro l
        induction l with
        | nil => intro _; rfl
        | cons x r ih =>
          intro hl
          obtain ⟨a, ha⟩ := mem_keys_iff.mp ((h x).mpr (hl x (by simp)))
          simp [ha, ih (fun f hf => hl f (by simp [hf]))]
      exact this fields (fun f hf => hf)
    · intro f hf _
      obtain ⟨a, ha⟩ := mem_keys_iff.mp ((h f).mpr hf)
      have : ∀ l : List String, f ∈ l →
          alook f (l.filterMap (fun f => (alook f kw).map (fun s => (f, s)))) = alook f kw := by
        intro l
        induction l with
        | nil => intro h; cases h
        | cons x r ih =>
          intro hl
          by_cases hx : x = f
          · subst hx; simp [ha, alook]
          · have hr : f ∈ r := by simpa [Ne.symm hx] using hl
            cases hax : alook x kw with
            | none => simp [hax, ih hr]
            | some b => simp [hax, alook, hx, ih hr]
      exact this fields hf
  · intro h
    have : ¬ (kw.all (fun p => fields.contains p.1) && fields.all (fun f => (alook f kw).isSome)) = true :=
      fun h' => h (hcond.mp h')
    simp only [Bool.not_eq_true] at this
    simp only [buildSlots, this]; rfl

/-- The keyword arguments after the empty slots have been added (chunks.py:133-138). -/
def fullKw (reg : Reg) (typ : String) (kw0 : Slots) : Slots :=
  kw0 ++ (((alook typ reg).getD []).filter (fun f => !(kw0.map Prod.fst).contains f)).map (fun f => (f, SlotOf.empty))

theorem fullKw_keys (reg : Reg) (typ : String) (kw0 : Slots) (f : String) :
    f ∈ (fullKw reg typ kw0).map Prod.fst ↔ f ∈ kw0.map Prod.fst ∨ f ∈ (alook typ reg).getD [] := by
  simp only [fullKw, List.map_append, List.mem_append, List.map_map, Function.comp_def, List.map_id', List.mem_filter,
    Bool.not_eq_true', ← Bool.not_eq_true, List.contains_iff_mem]
  tauto

theorem fullKw_nodup {E : PyEnv} {reg : Reg} (hr : RegOk E reg) (typ : String) (kw0 : Slots)
    (hn : (kw0.map Prod.fst).Nodup) : ((fullKw reg typ kw0).map Prod.fst).Nodup := by
  simp only [fullKw, List.map_append, List.map_map, Function.comp_def, List.map_id']
  refine List.nodup_append.mpr ⟨hn, ?_, ?_⟩
  · apply List.Nodup.filter
    cases h : alook typ reg with
    | none => simp
    | some fs => exact (hr typ fs h).1.nodup
  · intro a ha b hb hab
    subst hab
    simp only [List.mem_filter, Bool.not_eq_true', ← Bool.not_eq_true, List.contains_iff_mem] at hb
    exact hb.2 ha

theorem alook_fullKw (reg : Reg) (typ : String) (kw0 : Slots) (f : String) :
    alook f (fullKw reg typ kw0) = (alook f kw0).or (if f ∈ (alook typ reg).getD [] then some .empty else Option.none) := by
  simp only [fullKw, alook_append]
  cases h : alook f kw0 with
  | some s => rfl
  | none =>
    simp only [Option.none_or]
    have hk : f ∉ kw0.map Prod.fst := by
      intro hm; obtain ⟨a, ha⟩ := mem_keys_iff.mp hm; rw [h] at ha; cases ha
    have : ∀ l : List String, alook f ((l.filter (fun f => !(kw0.map Prod.fst).contains f)).map (fun f => (f, SlotOf.empty))) =
        if f ∈ l then some (SlotOf.empty : Slot) else Option.none := by
      intro l
      induction l with
      | nil => simp [alook]
      | cons x r ih =>
        by_cases hx : x = f
        · subst hx
          have : (!(kw0.map Prod.fst).contains x) = true := by
            simp only [Bool.not_eq_true', ← Bool.not_eq_true, List.contains_iff_mem]; exact hk
          rw [List.filter_cons, if_pos this]
          simp [alook]
        · by_cases hc : (!(kw0.map Prod.fst).contains x) = true
          · rw [List.filter_cons, if_pos hc]
            simp only [List.map_cons, alook, hx, if_false, ih, List.mem_cons, Ne.symm hx, false_or]
          · rw [List.filter_cons, if_neg hc, ih]
            simp [Ne.symm hx]
    exact this _

/-- Is the type name one of the special ones? -/
def IsSpecial (t : String) : Prop := ∃ s, (t, s) ∈ specialTypes

/-- All outcomes of creating a chunk whose slot values are right. -/
theorem createChunk_cases {E : PyEnv} {reg : Reg} (hr : RegOk E reg) {typ : String} {dict : List (String × SlotArg)}
    (hd : (dict.map Prod.fst).Nodup) {vals : List (String × VarVal)} (hv : convertAll E dict = .ok vals) :
    ((∃ fs, alook typ reg = some fs ∧ ∀ f ∈ dict.map Prod.fst, f ∈ fs) ∨
        (¬ IsSpecial typ ∧ E.typeOk typ = true ∧ ∀ f ∈ dict.map Prod.fst, E.fieldOk f = true)) ∧
      (∃ sl reg', createChunk E reg typ dict = (reg', .ok ⟨typ, sl⟩) ∧ FieldsSorted (sl.map Prod.fst) ∧
        (∀ f, alook f sl = (alook f (vals.map (fun p => (p.1, SlotOf.vv p.2)))).or (if f ∈ (alook typ reg).getD [] then some .empty else Option.none)) ∧
        alook typ reg' = some (sl.map Prod.fst) ∧ (∀ t, t ≠ typ → alook t reg' = alook t reg) ∧ RegOk E reg') ∨
    ¬ ((∃ fs, alook typ reg = some fs ∧ ∀ f ∈ dict.map Prod.fst, f ∈ fs) ∨
        (¬ IsSpecial typ ∧ E.typeOk typ = true ∧ ∀ f ∈ dict.map Prod.fst, E.fieldOk f = true)) ∧
      ∃ e, createChunk E reg typ dict = (reg, .error e) ∧
        (e = .type ∧ (∃ fs, alook typ reg = some fs) ∨ e = .key ∧ alook typ reg = Option.none) := by
  have hkeys : (vals.map (fun p => (p.1, SlotOf.vv p.2))).map Prod.fst = dict.map Prod.fst := by
    rw [← (convertAll_ok hv).1]; simp [Function.comp_def]
  generalize hkw0 : vals.map (fun p => (p.1, (SlotOf.vv p.2 : Slot))) = kw0 at *
  have hn0 : (kw0.map Prod.fst).Nodup := by rw [hkeys]; exact hd
  have hnk := fullKw_nodup hr typ kw0 hn0
  have hsp : ∀ l, SpecialMismatch typ (.names l) ↔ IsSpecial typ := by
    intro l; simp [SpecialMismatch, IsSpecial]
  -- what happens once a type with the right fields is there
  have build : ∀ fields : List String, fields.Nodup → (∀ f, f ∈ (fullKw reg typ kw0).map Prod.fst ↔ f ∈ fields) →
      ∃ sl, buildSlots fields (fullKw reg typ kw0) = .ok sl ∧ sl.map Prod.fst = fields ∧
        ∀ f, alook f sl = (alook f kw0).or (if f ∈ (alook typ reg).getD [] then some .empty else Option.none) := by
    intro fields hnd hf
    obtain ⟨sl, h1, h2, h3⟩ := buildSlots_spec.1 hf
    refine ⟨sl, h1, h2, ?_⟩
    intro f
    rw [← alook_fullKw]
    by_cases hm : f ∈ fields
    · exact h3 f hm hnd
    · have e1 : alook f sl = Option.none := by
        cases h : alook f sl with
        | none => rfl
        | some s => exact absurd (h2 ▸ mem_keys_iff.mpr ⟨s, h⟩) hm
      have e2 : alook f (fullKw reg typ kw0) = Option.none := by
        cases h : alook f (fullKw reg typ kw0) with
        | none => rfl
        | some s => exact absurd ((hf f).mp (mem_keys_iff.mpr ⟨s, h⟩)) hm
      rw [e1, e2]
  cases ht : alook typ reg with
  | some fields =>
    have hfull : kw0 ++ (fields.filter (fun f => !(kw0.map Prod.fst).contains f)).map (fun f => (f, SlotOf.empty)) =
        fullKw reg typ kw0 := by simp [fullKw, ht]
    have hcr : createChunk E reg typ dict =
        if (fullKw reg typ kw0).all (fun p => fields.contains p.1) then
          (reg, (buildSlots fields (fullKw reg typ kw0)).map (fun sl => ⟨typ, sl⟩))
        else match chunktype E reg typ (.names ((fullKw reg typ kw0).map Prod.fst)) [] with
          | .error _ => (reg, (buildSlots fields (fullKw reg typ kw0)).map (fun sl => ⟨typ, sl⟩))
          | .ok reg' => match alook typ reg' with
            | Option.none => (reg', .error .key)
            | some fields' => (reg', (buildSlots fields' (fullKw reg typ kw0)).map (fun sl => ⟨typ, sl⟩)) := by
      simp only [createChunk, hv, ht, hkw0, hfull]
      rfl
    obtain ⟨hsf, hok, htok⟩ := hr typ fields ht
    have hall : ((fullKw reg typ kw0).all (fun p => fields.contains p.1)) = true ↔
        ∀ f ∈ dict.map Prod.fst, f ∈ fields := by
      simp only [List.all_eq_true, List.contains_iff_mem]
      constructor
      · intro h f hf
        have : f ∈ (fullKw reg typ kw0).map Prod.fst := (fullKw_keys _ _ _ _).mpr (.inl (hkeys ▸ hf))
        obtain ⟨⟨g, a⟩, hm, rfl⟩ := List.mem_map.mp this
        exact h _ hm
      · intro h p hp
        rcases (fullKw_keys reg typ kw0 p.1).mp (List.mem_map_of_mem hp) with h' | h'
        · exact h _ (hkeys ▸ h')
        · simpa [ht] using h'
    by_cases hsub : ∀ f ∈ dict.map Prod.fst, f ∈ fields
    · left
      refine ⟨.inl ⟨fields, rfl, hsub⟩, ?_⟩
      have hff : ∀ f, f ∈ (fullKw reg typ kw0).map Prod.fst ↔ f ∈ fields := by
        intro f
        rw [fullKw_keys, hkeys, ht]
        simp only [Option.getD_some]
        exact ⟨fun h => h.elim (hsub f) id, .inr⟩
      obtain ⟨sl, h1, h2, h3⟩ := build fields hsf.nodup hff
      refine ⟨sl, reg, ?_, by rw [h2]; exact hsf, ?_, by rw [ht, h2], fun _ _ => rfl, hr⟩
      · rw [hcr, if_pos (hall.mpr hsub), h1]; rfl
      · intro f; rw [h3 f, ht]
    · have hna : ¬ ((fullKw reg typ kw0).all (fun p => fields.contains p.1)) = true := fun h => hsub (hall.mp h)
      rw [if_neg hna] at hcr
      cases hct : chunktype E reg typ (.names ((fullKw reg typ kw0).map Prod.fst)) [] with
      | ok reg' =>
        rw [hct] at hcr
        obtain ⟨fs, rfl, hs, hmem, hfo, hto, _, hnsp, _⟩ := chunktype_ok hct
        have hrl : alook typ (aset typ fs reg) = some fs := by simp [alook_aset]
        simp only [hrl] at hcr
        have hff : ∀ f, f ∈ (fullKw reg typ kw0).map Prod.fst ↔ f ∈ fs := by
          intro f; rw [hmem]; simp [FieldArg.list]
        left
        refine ⟨.inr ⟨fun h => hnsp ((hsp _).mpr h), hto, ?_⟩, ?_⟩
        · intro f hf
          exact hfo f ((hff f).mp ((fullKw_keys _ _ _ _).mpr (.inl (hkeys ▸ hf))))
        · obtain ⟨sl, h1, h2, h3⟩ := build fs hs.nodup hff
          refine ⟨sl, _, ?_, by rw [h2]; exact hs, ?_, by rw [hrl, h2], ?_, regOk_chunktype hct hr⟩
          · rw [hcr, h1]; rfl
          · intro f; rw [h3 f, ht]
          · intro t htt; simp [alook_aset, htt]
      | error e =>
        rw [hct] at hcr
        right
        refine ⟨?_, ?_⟩
        · rintro (⟨fs, hfs, h⟩ | ⟨h1, h2, h3⟩)
          · cases hfs; exact hsub h
          · obtain ⟨reg', hreg⟩ := chunktype_total (E := E) (reg := reg) (name := typ)
              (a := .names ((fullKw reg typ kw0).map Prod.fst)) (incl := []) (fun h => h1 ((hsp _).mp h)) (by simp) h2
              (by
                intro f hf
                simp only [FieldArg.list, List.not_mem_nil, false_and, exists_false, or_false] at hf
                rcases (fullKw_keys reg typ kw0 f).mp hf with h | h
                · exact h3 f (hkeys ▸ h)
                · exact hok f (by simpa [ht] using h))
              (fun _ => hnk)
            rw [hct] at hreg; cases hreg
        · refine ⟨.type, ?_, .inl ⟨rfl, fields, rfl⟩⟩
          have : buildSlots fields (fullKw reg typ kw0) = .error .type := buildSlots_spec.2 (by
            intro h
            apply hsub
            intro f hf
            exact (h f).mp ((fullKw_keys _ _ _ _).mpr (.inl (hkeys ▸ hf))))
          rw [hcr, this]; rfl
  | none =>
    have hfull : fullKw reg typ kw0 = kw0 := by simp [fullKw, ht]
    rw [hfull] at build hnk
    have hcr : createChunk E reg typ dict =
        match chunktype E reg typ (.names (kw0.map Prod.fst)) [] with
          | .error _ => (reg, .error .key)
          | .ok reg' => match alook typ reg' with
            | Option.none => (reg', .error .key)
            | some fields' => (reg', (buildSlots fields' kw0).map (fun sl => ⟨typ, sl⟩)) := by
      simp only [createChunk, hv, ht, hkw0]
      rfl
    cases hct : chunktype E reg typ (.names (kw0.map Prod.fst)) [] with
    | ok reg' =>
      rw [hct] at hcr
      obtain ⟨fs, rfl, hs, hmem, hfo, hto, _, hnsp, _⟩ := chunktype_ok hct
      have hrl : alook typ (aset typ fs reg) = some fs := by simp [alook_aset]
      simp only [hrl] at hcr
      have hff : ∀ f, f ∈ kw0.map Prod.fst ↔ f ∈ fs := by
        intro f; rw [hmem]; simp [FieldArg.list]
      left
      refine ⟨.inr ⟨fun h => hnsp ((hsp _).mpr h), hto, ?_⟩, ?_⟩
      · intro f hf
        exact hfo f ((hff f).mp (hkeys ▸ hf))
      · obtain ⟨sl, h1, h2, h3⟩ := build fs hs.nodup hff
        refine ⟨sl, _, ?_, by rw [h2]; exact hs, ?_, by rw [hrl, h2], ?_, regOk_chunktype hct hr⟩
        · rw [hcr, h1]; rfl
        · intro f; rw [h3 f, ht]
        · intro t htt; simp [alook_aset, htt]
    | error e =>
      rw [hct] at hcr
      right
      refine ⟨?_, .key, hcr, .inr ⟨rfl, rfl⟩⟩
      rintro (⟨fs, hfs, h⟩ | ⟨h1, h2, h3⟩)
      · cases hfs
      · obtain ⟨reg', hreg⟩ := chunktype_total (E := E) (reg := reg) (name := typ)
          (a := .names (kw0.map Prod.fst)) (incl := []) (fun h => h1 ((hsp _).mp h)) (by simp) h2
          (by
            intro f hf
            simp only [FieldArg.list, List.not_mem_nil, false_and, exists_false, or_false] at hf
            exact h3 f (hkeys ▸ hf))
          (fun _ => hnk)
        rw [hct] at hreg; cases hreg

theorem regOk_reach {E : PyEnv} {reg : Reg} (h : Reach E reg) : RegOk E reg := by
  induction h with
  | empty => intro t fs h; cases h
  | type _ h ih => exact regOk_chunktype h ih
  | @chunk reg typ dict _ hd ih =>
    cases hv : convertAll E dict with
    | error e => simp only [createChunk, hv]; exact ih
    | ok vals =>
      rcases createChunk_cases (typ := typ) ih hd hv with ⟨_, sl, reg', h, _, _, _, _, hr⟩ | ⟨_, e, h, _⟩
      · rw [h]; exact hr
      · rw [h]; exact ih

end Verif
