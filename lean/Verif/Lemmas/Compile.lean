import Verif.Spec.Compile
import Verif.Lemmas.ChunkDict
import Verif.Lemmas.Match
import Std.Data.String.ToNat
/-!
# Facts about production compilation
-/
namespace Verif
open Spec

/-! ## Dictionaries keyed by rule keys -/

theorem klook_kset {α : Type} (k m : Key) (a : α) (l : List (Key × α)) :
    klook m (kset k a l) = if m = k then some a else klook m l := by
  induction l with
  | nil =>
    by_cases h : m = k
    · subst h; simp [kset, klook]
    · have h' : ¬ k = m := fun e => h e.symm
      simp [kset, klook, h, h']
  | cons x r ih =>
    obtain ⟨j, b⟩ := x
    by_cases hj : j = k
    · subst hj
      by_cases h : m = j
      · subst h; simp [kset, klook]
      · have h' : ¬ j = m := fun e => h e.symm
        simp [kset, klook, h, h']
    · by_cases h : m = k
      · subst h; simp [kset, klook, hj, ih]
      · by_cases hm : j = m
        · subst hm; simp [kset, klook, hj]
        · simp [kset, klook, hj, hm, ih, h]

theorem klook_none_iff {α : Type} {k : Key} {l : List (Key × α)} : klook k l = Option.none ↔ k ∉ l.map Prod.fst := by
  induction l with
  | nil => simp [klook]
  | cons x r ih =>
    obtain ⟨j, b⟩ := x
    by_cases h : j = k
    · simp [klook, h]
    · have h' : ¬ k = j := fun e => h e.symm
      simp only [klook, h, if_false, List.map_cons, List.mem_cons, h', false_or]
      exact ih

theorem klook_of_mem {α : Type} {k : Key} {a : α} {l : List (Key × α)} (hn : (l.map Prod.fst).Nodup) (h : (k, a) ∈ l) :
    klook k l = some a := by
  induction l with
  | nil => simp at h
  | cons x r ih =>
    obtain ⟨j, b⟩ := x
    rw [List.map_cons, List.nodup_cons] at hn
    rcases List.mem_cons.1 h with e | h
    · cases e; simp [klook]
    · have : j ≠ k := by rintro rfl; exact hn.1 (List.mem_map.2 ⟨_, h, rfl⟩)
      simp only [klook, this, if_false]
      exact ih hn.2 h

theorem mem_of_klook {α : Type} {k : Key} {a : α} {l : List (Key × α)} (h : klook k l = some a) : (k, a) ∈ l := by
  induction l with
  | nil => simp [klook] at h
  | cons x r ih =>
    obtain ⟨j, b⟩ := x
    by_cases hj : j = k
    · subst hj; simp [klook] at h; subst h; exact List.mem_cons_self
    · simp only [klook, hj, if_false] at h; exact List.mem_cons_of_mem _ (ih h)

theorem kset_keys {α : Type} (k : Key) (a : α) (l : List (Key × α)) :
    (kset k a l).map Prod.fst = if k ∈ l.map Prod.fst then l.map Prod.fst else l.map Prod.fst ++ [k] := by
  induction l with
  | nil => simp [kset]
  | cons x r ih =>
    obtain ⟨j, b⟩ := x
    by_cases h : j = k
    · subst h; simp [kset]
    · have h' : ¬ k = j := fun e => h e.symm
      simp only [kset, h, if_false, List.map_cons, ih, List.mem_cons, h', false_or]
      split <;> simp_all

theorem kset_nodup {α : Type} {k : Key} {a : α} {l : List (Key × α)} (h : (l.map Prod.fst).Nodup) :
    ((kset k a l).map Prod.fst).Nodup := by
  rw [kset_keys]
  split
  · exact h
  · rename_i hk
    rw [List.nodup_append]
    exact ⟨h, by simp, by intro x hx y hy; simp at hy; subst hy; rintro rfl; exact hk hx⟩

theorem mem_kset {α : Type} {k m : Key} {a b : α} {l : List (Key × α)} (h : (m, b) ∈ kset k a l) :
    (m, b) = (k, a) ∨ (m, b) ∈ l := by
  induction l with
  | nil => simp [kset] at h; exact Or.inl (Prod.ext h.1 h.2)
  | cons x r ih =>
    obtain ⟨j, c⟩ := x
    by_cases hj : j = k
    · subst hj
      simp only [kset, if_true] at h
      rcases List.mem_cons.1 h with e | h
      · exact Or.inl e
      · exact Or.inr (List.mem_cons_of_mem _ h)
    · simp only [kset, hj, if_false] at h
      rcases List.mem_cons.1 h with e | h
      · exact Or.inr (e ▸ List.mem_cons_self)
      · rcases ih h with e | h
        · exact Or.inl e
        · exact Or.inr (List.mem_cons_of_mem _ h)

theorem kdel_sublist {α : Type} (k : Key) (l : List (Key × α)) : (kdel k l).Sublist l := List.filter_sublist

/-! ## Names of compiled rules -/

theorem compiledName_inj {r1 r2 : String} {i j : ℕ} (h : compiledName r1 r2 i = compiledName r1 r2 j) : i = j := by
  unfold compiledName at h
  have key : ∀ n : ℕ, (r1 ++ " and " ++ r2 ++ " " ++ toString n).length ≠ (r1 ++ " and " ++ r2).length := by
    intro n
    simp only [String.length_append]
    have : (" " : String).length = 1 := rfl
    omega
  split at h <;> split at h
  · have := congrArg String.toList h
    simp only [String.toList_append, List.append_cancel_left_eq] at this
    exact Nat.repr_injective (String.toList_inj.1 this)
  · exact absurd (congrArg String.length h) (key _)
  · exact absurd (congrArg String.length h).symm (key _)
  · omega

theorem compiledName_length (r1 r2 : String) (i : ℕ) :
    r1.length < (compiledName r1 r2 i).length ∧ r2.length < (compiledName r1 r2 i).length := by
  unfold compiledName
  have : (" and " : String).length = 5 := rfl
  split <;> simp only [String.length_append] <;> omega

theorem compiledName_ne (r1 r2 : String) (i : ℕ) : compiledName r1 r2 i ≠ r1 ∧ compiledName r1 r2 i ≠ r2 := by
  have := compiledName_length r1 r2 i
  constructor <;> (intro h; rw [h] at this; omega)

/-! ## The loop looking for a name -/

/-- The rule already stored, with its utility moved towards that of the first rule. -/
def relearn (p : UParams) (u1 : ℚ) (name : String) (r : CRule) (rules : CRules) : CRules :=
  if p.utilityLearning then aset name { r with utility := round4 (r.utility + p.alpha * (u1 - r.utility)) } rules else rules

theorem nameLoop_some {H : PyHash} {p : UParams} {r1 r2 : String} {u1 : ℚ} {new : Body} {rules rules' : CRules}
    {out : Except PyErr Compiled} : ∀ {fuel idx : ℕ}, nameLoop H p r1 r2 u1 new rules fuel idx = some (rules', out) →
    ∃ i, idx ≤ i ∧ (∀ j, idx ≤ j → j < i → ∃ r, alook (compiledName r1 r2 j) rules = some r ∧ bodyEq H r.body new = .ok false) ∧
      ((alook (compiledName r1 r2 i) rules = Option.none ∧ rules' = aset (compiledName r1 r2 i) ⟨new, 0, Option.none⟩ rules ∧
          out = .ok (.made (compiledName r1 r2 i) false)) ∨
        ∃ r, alook (compiledName r1 r2 i) rules = some r ∧
          ((∃ e, bodyEq H r.body new = .error e ∧ rules' = rules ∧ out = .error e) ∨
            (bodyEq H r.body new = .ok true ∧ rules' = relearn p u1 (compiledName r1 r2 i) r rules ∧
              out = .ok (.made (compiledName r1 r2 i) true)))) := by
  intro fuel
  induction fuel with
  | zero => intro idx h; simp [nameLoop] at h
  | succ n ih =>
    intro idx h
    simp only [nameLoop] at h
    rcases hl : alook (compiledName r1 r2 idx) rules with _ | r
    · rw [hl] at h
      simp only [Option.some.injEq, Prod.mk.injEq] at h
      exact ⟨idx, le_refl _, fun j h1 h2 => by omega, Or.inl ⟨hl, h.1.symm, h.2.symm⟩⟩
    · rw [hl] at h
      rcases hb : bodyEq H r.body new with e | b
      · simp only [hb, Option.some.injEq, Prod.mk.injEq] at h
        exact ⟨idx, le_refl _, fun j h1 h2 => by omega, Or.inr ⟨r, hl, Or.inl ⟨e, hb, h.1.symm, h.2.symm⟩⟩⟩
      · cases b with
        | true =>
          simp only [hb, Option.some.injEq, Prod.mk.injEq] at h
          exact ⟨idx, le_refl _, fun j h1 h2 => by omega, Or.inr ⟨r, hl, Or.inr ⟨hb, h.1.symm, h.2.symm⟩⟩⟩
        | false =>
          simp only [hb] at h
          obtain ⟨i, hi, hj, hr⟩ := ih h
          refine ⟨i, by omega, fun j h1 h2 => ?_, hr⟩
          by_cases e : j = idx
          · subst e; exact ⟨r, hl, hb⟩
          · exact hj j (by omega) h2

theorem nameLoop_none {H : PyHash} {p : UParams} {r1 r2 : String} {u1 : ℚ} {new : Body} {rules : CRules} :
    ∀ {fuel idx : ℕ}, nameLoop H p r1 r2 u1 new rules fuel idx = Option.none →
    ∀ j, j < fuel → compiledName r1 r2 (idx + j) ∈ rules.map Prod.fst := by
  intro fuel
  induction fuel with
  | zero => intro idx _ j hj; omega
  | succ n ih =>
    intro idx h j hj
    simp only [nameLoop] at h
    rcases hl : alook (compiledName r1 r2 idx) rules with _ | r
    · simp [hl] at h
    · rw [hl] at h
      rcases hb : bodyEq H r.body new with e | b
      · simp [hb] at h
      · cases b with
        | true => simp [hb] at h
        | false =>
          simp only [hb] at h
          by_cases e : j = 0
          · subst e
            exact mem_keys_iff.2 ⟨r, hl⟩
          · have := ih h (j - 1) (by omega)
            rwa [show idx + 1 + (j - 1) = idx + j by omega] at this

theorem nameLoop_total (H : PyHash) (p : UParams) (r1 r2 : String) (u1 : ℚ) (new : Body) (rules : CRules) :
    ∃ x, nameLoop H p r1 r2 u1 new rules (rules.length + 1) 0 = some x := by
  rcases h : nameLoop H p r1 r2 u1 new rules (rules.length + 1) 0 with _ | x
  · exfalso
    have hm := nameLoop_none h
    have hnd : ((List.range (rules.length + 1)).map (compiledName r1 r2)).Nodup :=
      List.Nodup.map (fun i j e => compiledName_inj e) List.nodup_range
    have hsub : (List.range (rules.length + 1)).map (compiledName r1 r2) ⊆ rules.map Prod.fst := by
      intro x hx
      obtain ⟨j, hj, rfl⟩ := List.mem_map.1 hx
      have := hm j (List.mem_range.1 hj)
      rwa [Nat.zero_add] at this
    have := (List.subperm_of_subset hnd hsub).length_le
    simp at this
  · exact ⟨x, rfl⟩

/-! ## Compiled rules yield dictionaries -/

theorem except_bind_ok {α β : Type} {x : Except PyErr α} {f : α → Except PyErr β} {b : β} (h : x.bind f = .ok b) :
    ∃ a, x = .ok a ∧ f a = .ok b := by
  cases x with
  | error e => cases h
  | ok a => exact ⟨a, rfl, h⟩

theorem except_map_ok {α β : Type} {x : Except PyErr α} {f : α → β} {b : β} (h : x.map f = .ok b) :
    ∃ a, x = .ok a ∧ f a = b := by
  cases x with
  | error e => cases h
  | ok a => cases h; exact ⟨a, rfl, rfl⟩

theorem mapEntries_ok {α : Type} {f : Key → α → Except PyErr α} {l l' : List (Key × α)} (h : mapEntries f l = .ok l') :
    List.Forall₂ (fun p q => q.1 = p.1 ∧ f p.1 p.2 = .ok q.2) l l' := by
  induction l generalizing l' with
  | nil => simp only [mapEntries, Except.ok.injEq] at h; subst h; exact .nil
  | cons x r ih =>
    obtain ⟨k, v⟩ := x
    simp only [mapEntries] at h
    rcases hf : f k v with e | w
    · rw [hf] at h; cases h
    · rw [hf] at h
      rcases hr : mapEntries f r with e | r'
      · rw [hr] at h; cases h
      · rw [hr] at h
        simp only [Except.ok.injEq] at h
        subst h
        exact .cons ⟨rfl, hf⟩ (ih hr)

theorem forall₂_keys {α β : Type} {R : Key × α → Key × β → Prop} {l : List (Key × α)} {l' : List (Key × β)}
    (h : List.Forall₂ R l l') (hR : ∀ p q, R p q → q.1 = p.1) : l'.map Prod.fst = l.map Prod.fst := by
  induction h with
  | nil => rfl
  | cons h _ ih => simp [hR _ _ h, ih]

theorem forall₂_mem_right {α β : Type} {R : α → β → Prop} {l : List α} {l' : List β} (h : List.Forall₂ R l l') {b : β}
    (hb : b ∈ l') : ∃ a ∈ l, R a b := by
  induction h with
  | nil => simp at hb
  | cons h _ ih =>
    rcases List.mem_cons.1 hb with rfl | hb
    · exact ⟨_, List.mem_cons_self, h⟩
    · obtain ⟨a, ha, hr⟩ := ih hb
      exact ⟨a, List.mem_cons_of_mem _ ha, hr⟩

theorem mapBody_dict {E : PyEnv} {reg : Reg} {f : Slot → Except PyErr VarVal} {b : Body} (hb : DictBody b) :
    DictBody (mapBody E reg f b) := by
  constructor
  · intro l hl
    obtain ⟨l0, h0, hl⟩ := except_bind_ok hl
    have h2 := mapEntries_ok hl
    refine ⟨by rw [forall₂_keys h2 (fun _ _ h => h.1)]; exact (hb.lhs _ h0).1, fun k d hm => ?_⟩
    obtain ⟨⟨k0, v⟩, hv, hk, hf⟩ := forall₂_mem_right h2 hm
    simp only [mapLVal] at hf
    split at hf
    · cases v with
      | chunk c => obtain ⟨c', _, h⟩ := except_map_ok hf; cases h
      | dict d' => cases hf
    · cases hf; exact (hb.lhs _ h0).2 _ _ hv
  · intro l hl
    obtain ⟨l0, h0, hl⟩ := except_bind_ok hl
    have h2 := mapEntries_ok hl
    refine ⟨by rw [forall₂_keys h2 (fun _ _ h => h.1)]; exact (hb.rhs _ h0).1, fun k d hm => ?_⟩
    obtain ⟨⟨k0, v⟩, hv, hk, hf⟩ := forall₂_mem_right h2 hm
    simp only [mapRVal] at hf
    split at hf
    · cases v with
      | chunk c => obtain ⟨c', _, h⟩ := except_map_ok hf; cases h
      | _ => cases hf
    · cases hf; exact (hb.rhs _ h0).2 _ _ hv

/-- Keys are distinct, and so are the keys of dictionaries of queries. -/
def DictL (l : List (Key × LVal)) : Prop := (l.map Prod.fst).Nodup ∧ ∀ k d, (k, LVal.dict d) ∈ l → (d.map Prod.fst).Nodup

/-- The same for right-hand sides. -/
def DictR (l : List (Key × RVal)) : Prop := (l.map Prod.fst).Nodup ∧ ∀ k d, (k, RVal.tests d) ∈ l → (d.map Prod.fst).Nodup

theorem collapseLhs1_ok {E : PyEnv} {reg : Reg} {sv : SlotVals} {ret : Option String} :
    ∀ {l1 p2 : List (Key × LVal)} {p : List (Key × LVal) × List (Key × LVal)}, collapseLhs1 E reg sv ret l1 p2 = .ok p →
      p.1.map Prod.fst = l1.map Prod.fst ∧ (∀ k d, (k, LVal.dict d) ∈ p.1 → (k, LVal.dict d) ∈ l1) ∧ p.2.Sublist p2 := by
  intro l1
  induction l1 with
  | nil =>
    intro p2 p h
    simp only [collapseLhs1, Except.ok.injEq] at h
    subst h
    simp
  | cons x r ih =>
    obtain ⟨k, v⟩ := x
    intro p2 p h
    have rest : ∀ {w : LVal} {q : List (Key × LVal)}, q.Sublist p2 → (∀ d, w = .dict d → v = .dict d) →
        (match collapseLhs1 E reg sv ret r q with
          | .error e => .error e
          | .ok (l, q') => .ok ((k, w) :: l, q') : Except PyErr (List (Key × LVal) × List (Key × LVal))) = .ok p →
        p.1.map Prod.fst = ((k, v) :: r).map Prod.fst ∧ (∀ k' d, (k', LVal.dict d) ∈ p.1 → (k', LVal.dict d) ∈ (k, v) :: r) ∧
          p.2.Sublist p2 := by
      intro w q hq hw h
      rcases hc : collapseLhs1 E reg sv ret r q with e | ⟨l, q'⟩
      · rw [hc] at h; cases h
      · rw [hc] at h
        simp only [Except.ok.injEq] at h
        subst h
        obtain ⟨h1, h2, h3⟩ := ih hc
        refine ⟨by simp [h1], fun k' d hm => ?_, h3.trans hq⟩
        rcases List.mem_cons.1 hm with e | hm
        · simp only [Prod.mk.injEq] at e
          rw [e.1, hw d e.2.symm]; exact List.mem_cons_self
        · exact List.mem_cons_of_mem _ (h2 _ _ hm)
    simp only [collapseLhs1] at h
    by_cases hq : k.code = '?'
    · rw [if_pos hq] at h
      exact rest (List.Sublist.refl _) (fun _ h => h) h
    · rw [if_neg hq] at h
      by_cases he : k.code = '='
      · rw [if_pos he] at h
        rcases hk : klook k p2 with _ | w
        · rw [hk] at h
          exact rest (List.Sublist.refl _) (fun _ h => h) h
        · rw [hk] at h
          cases v with
          | dict d => simp at h
          | chunk c1 =>
            cases w with
            | dict d => simp at h
            | chunk c2 =>
              simp only at h
              by_cases hr : ((alook k.name sv).isNone && ret == some k.name) = true
              · rw [if_pos hr] at h
                exact rest (kdel_sublist _ _) (fun _ h => h) h
              · rw [if_neg hr] at h
                rcases hm : mergeSlots c1.slots c2.slots with e | d
                · rw [hm] at h; cases h
                · rw [hm] at h
                  simp only at h
                  rcases hc : mkChunk E reg c1.typ d with e | c
                  · rw [hc] at h; cases h
                  · rw [hc] at h
                    exact rest (kdel_sublist _ _) (fun _ h => by cases h) h
      · rw [if_neg he] at h; cases h

theorem foldl_aset_nodup (d d1 : List (String × String)) (h : (d1.map Prod.fst).Nodup) :
    ((d.foldl (fun m p => aset p.1 p.2 m) d1).map Prod.fst).Nodup := by
  induction d generalizing d1 with
  | nil => exact h
  | cons x r ih => exact ih _ (nodup_aset _ _ _ h)

theorem dictL_kset {l : List (Key × LVal)} {k : Key} {v : LVal} (h : DictL l) (hv : ∀ d, v = .dict d → (d.map Prod.fst).Nodup) :
    DictL (kset k v l) := by
  refine ⟨kset_nodup h.1, fun k' d hm => ?_⟩
  rcases mem_kset hm with e | hm
  · simp only [Prod.mk.injEq] at e; exact hv d e.2.symm
  · exact h.2 _ _ hm

theorem collapseLhs2_ok {E : PyEnv} {reg : Reg} {rhs1 : Except PyErr (List (Key × RVal))} {sv : SlotVals} {ret : Option String} :
    ∀ {p2 p1 l : List (Key × LVal)}, DictL p1 → (∀ k d, (k, LVal.dict d) ∈ p2 → (d.map Prod.fst).Nodup) →
      collapseLhs2 E reg rhs1 sv ret p2 p1 = .ok l → DictL l := by
  intro p2
  induction p2 with
  | nil => intro p1 l h1 _ h; simp only [collapseLhs2, Except.ok.injEq] at h; exact h ▸ h1
  | cons x r ih =>
    obtain ⟨k, v⟩ := x
    intro p1 l h1 h2 h
    have h2' : ∀ k d, (k, LVal.dict d) ∈ r → (d.map Prod.fst).Nodup := fun k d hm => h2 k d (List.mem_cons_of_mem _ hm)
    simp only [collapseLhs2] at h
    by_cases hq : k.code = '?'
    · rw [if_pos hq] at h
      rcases ha : rhs1.bind (actsOn k.name) with e | b
      · rw [ha] at h; cases h
      · rw [ha] at h
        cases b with
        | true => exact ih h1 h2' h
        | false =>
          cases v with
          | chunk c => simp at h
          | dict d =>
            have hd := h2 k d List.mem_cons_self
            rcases hk : klook k p1 with _ | w
            · rw [hk] at h
              exact ih (dictL_kset h1 (fun d' e => by cases e; exact hd)) h2' h
            · rw [hk] at h
              cases w with
              | chunk c => simp at h
              | dict d1 =>
                exact ih (dictL_kset h1 (fun d' e => by
                  cases e; exact foldl_aset_nodup _ _ (h1.2 k d1 (mem_of_klook hk)))) h2' h
    · rw [if_neg hq] at h
      by_cases he : k.code = '='
      · rw [if_pos he] at h
        cases v with
        | dict d => simp at h
        | chunk c2 =>
          simp only at h
          by_cases hr : ((alook k.name sv).isNone && ret == some k.name) = true
          · rw [if_pos hr] at h; exact ih h1 h2' h
          · rw [if_neg hr] at h
            rcases hc : mkChunk E reg c2.typ (c2.slots.map (fun p => (p.1, slotArg p.2))) with e | c
            · rw [hc] at h; cases h
            · rw [hc] at h
              exact ih (dictL_kset h1 (fun d' e => by cases e)) h2' h
      · rw [if_neg he] at h; cases h

theorem collapseRhs2_ok {E : PyEnv} {reg : Reg} {sv : SlotVals} :
    ∀ {p2 l : List (Key × RVal)}, collapseRhs2 E reg sv p2 = .ok l →
      l.map Prod.fst = p2.map Prod.fst ∧ ∀ k d, (k, RVal.tests d) ∈ l → (k, RVal.tests d) ∈ p2 := by
  intro p2
  induction p2 with
  | nil => intro l h; simp only [collapseRhs2, Except.ok.injEq] at h; subst h; simp
  | cons x r ih =>
    obtain ⟨k, v⟩ := x
    intro l h
    have rest : ∀ {w : RVal}, (∀ d, w = .tests d → v = .tests d) →
        (collapseRhs2 E reg sv r).map (fun l => (k, w) :: l) = .ok l →
        l.map Prod.fst = ((k, v) :: r).map Prod.fst ∧ ∀ k' d, (k', RVal.tests d) ∈ l → (k', RVal.tests d) ∈ (k, v) :: r := by
      intro w hw h
      obtain ⟨l', hl, rfl⟩ := except_map_ok h
      obtain ⟨h1, h2⟩ := ih hl
      refine ⟨by simp [h1], fun k' d hm => ?_⟩
      rcases List.mem_cons.1 hm with e | hm
      · simp only [Prod.mk.injEq] at e
        rw [e.1, hw d e.2.symm]; exact List.mem_cons_self
      · exact List.mem_cons_of_mem _ (h2 _ _ hm)
    simp only [collapseRhs2] at h
    by_cases h1 : k.code = '!' ∨ k.code = '~' ∨ k.code = '?'
    · rw [if_pos h1] at h; exact rest (fun _ h => h) h
    · rw [if_neg h1] at h
      by_cases h2 : isChunkCode k.code = true
      · rw [if_pos h2] at h
        rcases ha : alook k.name sv with _ | i
        · rw [ha] at h; exact rest (fun _ h => h) h
        · rw [ha] at h
          cases v with
          | chunk c =>
            simp only at h
            generalize hm : mkChunk E reg c.typ _ = o at h
            cases o with
            | error e => cases h
            | ok c' => exact rest (fun _ h => by cases h) h
          | _ => simp at h
      · rw [if_neg h2] at h; cases h

theorem dictR_kset {l : List (Key × RVal)} {k : Key} {v : RVal} (h : DictR l) (hv : ∀ d, v = .tests d → (d.map Prod.fst).Nodup) :
    DictR (kset k v l) := by
  refine ⟨kset_nodup h.1, fun k' d hm => ?_⟩
  rcases mem_kset hm with e | hm
  · simp only [Prod.mk.injEq] at e; exact hv d e.2.symm
  · exact h.2 _ _ hm

theorem collapseRhs1_ok {E : PyEnv} {reg : Reg} {ret : Option String} :
    ∀ {p1 p2 l : List (Key × RVal)}, DictR p2 → (∀ k d, (k, RVal.tests d) ∈ p1 → (d.map Prod.fst).Nodup) →
      collapseRhs1 E reg ret p1 p2 = .ok l → DictR l := by
  intro p1
  induction p1 with
  | nil => intro p2 l h1 _ h; simp only [collapseRhs1, Except.ok.injEq] at h; exact h ▸ h1
  | cons x r ih =>
    obtain ⟨k, v⟩ := x
    intro p2 l h1 h2 h
    have h2' : ∀ k d, (k, RVal.tests d) ∈ r → (d.map Prod.fst).Nodup := fun k d hm => h2 k d (List.mem_cons_of_mem _ hm)
    simp only [collapseRhs1] at h
    split at h
    · exact ih h1 h2' h
    · split at h
      · exact ih h1 h2' h
      · split at h
        · exact ih (dictR_kset h1 (fun d e => h2 k d (e ▸ List.mem_cons_self))) h2' h
        · split at h
          · cases v with
            | chunk c =>
              simp only at h
              generalize hm : mkChunk E reg c.typ _ = o at h
              cases o with
              | error e => cases h
              | ok c' => exact ih (dictR_kset h1 (fun d e => by cases e)) h2' h
            | _ => simp at h
          · cases h

theorem collapse_dict {E : PyEnv} {reg : Reg} {b1 b2 : Body} {sv : SlotVals} {ret : Option String} (h1 : DictBody b1)
    (h2 : DictBody b2) : DictBody (collapse E reg b1 b2 sv ret) := by
  constructor
  · intro l h
    obtain ⟨l1, e1, h⟩ := except_bind_ok h
    obtain ⟨l2, e2, h⟩ := except_bind_ok h
    obtain ⟨p, hp, h⟩ := except_bind_ok h
    obtain ⟨a, b, c⟩ := collapseLhs1_ok hp
    exact collapseLhs2_ok ⟨by rw [a]; exact (h1.lhs _ e1).1, fun k d hm => (h1.lhs _ e1).2 k d (b k d hm)⟩
      (fun k d hm => (h2.lhs _ e2).2 k d (c.subset hm)) h
  · intro l h
    obtain ⟨l1, e1, h⟩ := except_bind_ok h
    obtain ⟨l2, e2, h⟩ := except_bind_ok h
    obtain ⟨q, hq, h⟩ := except_bind_ok h
    obtain ⟨a, b⟩ := collapseRhs2_ok hq
    exact collapseRhs1_ok ⟨by rw [a]; exact (h2.rhs _ e2).1, fun k d hm => (h2.rhs _ e2).2 k d (b k d hm)⟩
      (fun k d hm => (h1.rhs _ e1).2 k d hm) h

theorem newRule_dict {P : Py} {reg : Reg} {name2 : String} {b1 b2 new : Body} {sv : SlotVals} {bufs : List (String × CBuf)}
    (h1 : DictBody b1) (h2 : DictBody b2) (h : newRule P reg name2 b1 b2 sv bufs = .ok (some new)) : DictBody new := by
  obtain ⟨stop, _, h⟩ := except_bind_ok h
  cases stop with
  | true => simp at h
  | false =>
    simp only [Bool.false_eq_true, if_false] at h
    obtain ⟨sc, _, h⟩ := except_bind_ok h
    cases sc with
    | none => simp at h
    | some sc =>
      obtain ⟨l2, _, h⟩ := except_bind_ok h
      obtain ⟨⟨sv', st⟩, _, h⟩ := except_bind_ok h
      obtain ⟨sv'', _, h⟩ := except_map_ok h
      simp only [Option.some.injEq] at h
      subst h
      exact collapse_dict (mapBody_dict h1) (mapBody_dict (mapBody_dict h2))

/-! ## Equality of rules -/

theorem dictEq_same {α : Type} {f : α → α → Except PyErr Bool} {same : α → α → Prop} {a b : List (Key × α)}
    (ha : (a.map Prod.fst).Nodup) (hf : ∀ k v w, (k, v) ∈ a → (k, w) ∈ b → f v w = .ok true → same v w)
    (h : dictEq f a b = .ok true) : SameDict same a b := by
  simp only [dictEq] at h
  split at h
  swap
  · cases h
  rename_i hlen
  have go : ∀ r : List (Key × α), dictEq.go f b r = .ok true → ∀ k v, (k, v) ∈ r → ∃ w, klook k b = some w ∧ f v w = .ok true := by
    intro r
    induction r with
    | nil => intro _ k v hm; simp at hm
    | cons x r ih =>
      obtain ⟨k0, v0⟩ := x
      intro h k v hm
      simp only [dictEq.go] at h
      rcases hk : klook k0 b with _ | w
      · rw [hk] at h; cases h
      · rw [hk] at h
        rcases hv : f v0 w with e | c
        · simp only [hv] at h; cases h
        · cases c with
          | false => simp only [hv] at h; cases h
          | true =>
            simp only [hv] at h
            rcases List.mem_cons.1 hm with e | hm
            · cases e; exact ⟨w, hk, hv⟩
            · exact ih h k v hm
  have hgo := go a h
  have hsub : a.map Prod.fst ⊆ b.map Prod.fst := by
    intro k hk
    obtain ⟨⟨k', v⟩, hm, rfl⟩ := List.mem_map.1 hk
    obtain ⟨w, hw, _⟩ := hgo _ _ hm
    exact List.mem_map.2 ⟨_, mem_of_klook hw, rfl⟩
  have hperm : (a.map Prod.fst).Perm (b.map Prod.fst) :=
    (List.subperm_of_subset ha hsub).perm_of_length_le (by simp [hlen])
  intro k
  by_cases hk : k ∈ a.map Prod.fst
  · obtain ⟨⟨k', v⟩, hm, rfl⟩ := List.mem_map.1 hk
    obtain ⟨w, hw, hv⟩ := hgo _ _ hm
    exact Or.inr ⟨v, w, klook_of_mem ha hm, hw, hf _ _ _ hm (mem_of_klook hw) hv⟩
  · exact Or.inl ⟨klook_none_iff.2 hk, klook_none_iff.2 (fun h => hk (hperm.mem_iff.2 h))⟩

theorem sdictEq_same {a b : List (String × String)} (ha : (a.map Prod.fst).Nodup) (h : sdictEq a b = true) (n : String) :
    alook n a = alook n b := by
  simp only [sdictEq, Bool.and_eq_true, decide_eq_true_eq, List.all_eq_true, beq_iff_eq] at h
  obtain ⟨hlen, hall⟩ := h
  have hsub : a.map Prod.fst ⊆ b.map Prod.fst := by
    intro k hk
    obtain ⟨⟨k', v⟩, hm, rfl⟩ := List.mem_map.1 hk
    exact mem_keys_iff.2 ⟨v, hall _ hm⟩
  have hperm : (a.map Prod.fst).Perm (b.map Prod.fst) :=
    (List.subperm_of_subset ha hsub).perm_of_length_le (by simp [hlen])
  by_cases hk : n ∈ a.map Prod.fst
  · obtain ⟨⟨k', v⟩, hm, rfl⟩ := List.mem_map.1 hk
    rw [alook_of_mem ha hm, hall _ hm]
  · have e1 : alook n a = Option.none := by
      rcases h : alook n a with _ | v
      · rfl
      · exact absurd (mem_keys_iff.2 ⟨v, h⟩) hk
    have e2 : alook n b = Option.none := by
      rcases h : alook n b with _ | v
      · rfl
      · exact absurd (hperm.mem_iff.2 (mem_keys_iff.2 ⟨v, h⟩)) hk
    rw [e1, e2]

theorem bodyEq_same {H : PyHash} {a b : Body} (ha : DictBody a) (h : bodyEq H a b = .ok true) : SameRule H a b := by
  obtain ⟨la, ea, h⟩ := except_bind_ok h
  obtain ⟨lb, eb, h⟩ := except_bind_ok h
  obtain ⟨e, he, h⟩ := except_bind_ok h
  cases e with
  | false => simp at h
  | true =>
    simp only [if_true] at h
    obtain ⟨ra, era, h⟩ := except_bind_ok h
    obtain ⟨rb, erb, h⟩ := except_bind_ok h
    refine ⟨la, lb, ra, rb, ea, eb, era, erb, dictEq_same (ha.lhs _ ea).1 ?_ he, dictEq_same (ha.rhs _ era).1 ?_ h⟩
    · intro k v w hv hw hvw
      cases v with
      | chunk c => cases w with
        | chunk c' => exact .chunk (by simpa [LVal.eq] using hvw)
        | dict d => cases hvw
      | dict d => cases w with
        | chunk c' => cases hvw
        | dict d' => exact .dict (sdictEq_same ((ha.lhs _ ea).2 _ _ hv) (by simpa [LVal.eq] using hvw))
    · intro k v w hv hw hvw
      cases v <;> cases w <;> simp only [RVal.eq] at hvw <;> try cases hvw
      · rename_i a b; exact .chunk (by simpa using hvw)
      · rename_i a b; exact .tests (sdictEq_same ((ha.rhs _ era).2 _ _ hv) (by simpa using hvw))
      · rename_i a b
        have : a = b := by simpa using hvw
        subst this; exact .cmds
      · exact .nothing

theorem dictEq_refl {α : Type} {f : α → α → Except PyErr Bool} {a : List (Key × α)} (ha : (a.map Prod.fst).Nodup)
    (hf : ∀ k v, (k, v) ∈ a → f v v = .ok true) : dictEq f a a = .ok true := by
  simp only [dictEq, if_true]
  have go : ∀ r : List (Key × α), (∀ x ∈ r, x ∈ a) → dictEq.go f a r = .ok true := by
    intro r
    induction r with
    | nil => intro _; rfl
    | cons x r ih =>
      obtain ⟨k, v⟩ := x
      intro hm
      simp only [dictEq.go, klook_of_mem ha (hm _ List.mem_cons_self), hf k v (hm _ List.mem_cons_self)]
      exact ih (fun x hx => hm x (List.mem_cons_of_mem _ hx))
  exact go a (fun _ h => h)

theorem sdictEq_refl {a : List (String × String)} (ha : (a.map Prod.fst).Nodup) : sdictEq a a = true := by
  simp only [sdictEq, decide_true, Bool.true_and, List.all_eq_true, beq_iff_eq]
  rintro ⟨n, v⟩ hm
  exact alook_of_mem ha hm

/-- A rule is never found to differ from itself. -/
theorem bodyEq_refl {H : PyHash} {a : Body} (ha : DictBody a) : bodyEq H a a ≠ .ok false := by
  intro h
  obtain ⟨la, ea, h⟩ := except_bind_ok h
  obtain ⟨lb, eb, h⟩ := except_bind_ok h
  rw [ea] at eb; cases eb
  have : dictEq (LVal.eq H) la la = .ok true := dictEq_refl (ha.lhs _ ea).1 (by
    rintro k v hm
    cases v with
    | chunk c => simp [LVal.eq, Chunk.eq]
    | dict d => simp [LVal.eq, sdictEq_refl ((ha.lhs _ ea).2 _ _ hm)])
  rw [this] at h
  obtain ⟨e, he, h⟩ := except_bind_ok h
  cases he
  simp only [if_true] at h
  obtain ⟨ra, era, h⟩ := except_bind_ok h
  obtain ⟨rb, erb, h⟩ := except_bind_ok h
  rw [era] at erb; cases erb
  have : dictEq (RVal.eq H) ra ra = .ok true := dictEq_refl (ha.rhs _ era).1 (by
    rintro k v hm
    cases v with
    | chunk c => simp [RVal.eq, Chunk.eq]
    | tests d => simp [RVal.eq, sdictEq_refl ((ha.rhs _ era).2 _ _ hm)]
    | cmds l => simp [RVal.eq]
    | nothing => rfl)
  rw [this] at h
  cases h

end Verif
