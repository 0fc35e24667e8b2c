import Verif.Spec.Buffer
import Verif.Lemmas.DecMem
import Verif.Lemmas.BoundVars
import Verif.Lemmas.Rounding
/-! Helper lemmas about buffers. -/
namespace Verif
open Verif.Spec

theorem cdSet_plain {α : Type} {H : PyHash} {c : Chunk} {a : α} (hc : Plain c) {l : CDict α} (h : ∀ d b, (d, b) ∈ l → Plain d) :
    ∀ d b, (d, b) ∈ cdSet H c a l → Plain d := by
  intro d b hm
  have hm' : d ∈ (cdSet H c a l).map Prod.fst := List.mem_map_of_mem (f := Prod.fst) hm
  have hk : ∀ d ∈ l.map Prod.fst, Plain d := by
    intro d hd; obtain ⟨⟨e, b⟩, he, rfl⟩ := List.mem_map.mp hd; exact h e b he
  rw [cdSet_keys] at hm'
  split at hm'
  · exact hk d hm'
  · rcases List.mem_append.mp hm' with h' | h'
    · exact hk d h'
    · rw [List.mem_singleton.mp h']; exact hc

theorem goodMem_distinct {H : PyHash} (cf : H.CollisionFree) {m : DecMem} (h : GoodMem m) : CDict.Distinct H m.data := by
  refine h.once.imp_of_mem ?_
  intro a b ha hb hne
  rw [← Bool.not_eq_true, ceq_content cf (h.plain a.1 a.2 ha) (h.plain b.1 b.2 hb)]
  exact hne

theorem distinct_once {H : PyHash} (cf : H.CollisionFree) {l : CDict (List ℚ)} (hp : ∀ d b, (d, b) ∈ l → Plain d)
    (h : CDict.Distinct H l) : l.Pairwise (fun a b => chunkContent a.1 ≠ chunkContent b.1) := by
  refine List.Pairwise.imp_of_mem ?_ h
  intro a b ha hb he
  rw [← Bool.not_eq_true, ceq_content cf (hp a.1 a.2 ha) (hp b.1 b.2 hb)] at he
  exact he

theorem hasTraces_iff {H : PyHash} (cf : H.CollisionFree) {m : DecMem} (h : GoodMem m) {c : Chunk} (hc : Plain c) (l : List ℚ) :
    HasTraces m c l ↔ l = (cdLook H c m.data).getD [] := by
  constructor
  · rintro (⟨d, hd, he⟩ | ⟨hn, rfl⟩)
    · have := cdLook_of_mem (goodMem_distinct cf h) hd
      rw [← cdLook_congr ((ceq_content cf (h.plain d l hd) hc).mpr he), this]; rfl
    · cases hl : cdLook H c m.data with
      | none => rfl
      | some l' =>
        obtain ⟨d, hd, he⟩ := cdLook_mem hl
        exact absurd ((ceq_content cf (h.plain d l' hd) hc).mp he) (hn d l' hd)
  · rintro rfl
    cases hl : cdLook H c m.data with
    | none =>
      refine .inr ⟨?_, rfl⟩
      intro d l' hd he
      have : (cdLook H c m.data).isSome = true :=
        cdLook_isSome.mpr ⟨d, List.mem_map_of_mem (f := Prod.fst) hd, (ceq_content cf (h.plain d l' hd) hc).mpr he⟩
      rw [hl] at this; simp at this
    | some l' =>
      obtain ⟨d, hd, he⟩ := cdLook_mem hl
      exact .inl ⟨d, hd, (ceq_content cf (h.plain d l' hd) hc).mp he⟩

theorem addOne_good {H : PyHash} (cf : H.CollisionFree) {m : DecMem} (h : GoodMem m) {c : Chunk} (hc : Plain c) (t : TimeArg) :
    GoodMem (m.addOne H c t) := by
  have hp : ∀ d b, (d, b) ∈ (m.addOne H c t).data → Plain d := by
    rw [addOne_data]; exact cdSet_plain hc h.plain
  refine ⟨hp, distinct_once cf hp ?_⟩
  rw [addOne_data]; exact cdSet_distinct (goodMem_distinct cf h)

theorem addOne_act (H : PyHash) (m : DecMem) (c : Chunk) (t : TimeArg) : (m.addOne H c t).act = m.act := by
  simp only [DecMem.addOne, DecMem.setDefault]
  cases cdLook H c m.data <;> rfl

open Classical in
theorem nTraces_set {H : PyHash} (cf : H.CollisionFree) {c d : Chunk} (hc : Plain c) (l : List ℚ) :
    ∀ data : CDict (List ℚ), (∀ e b, (e, b) ∈ data → Plain e) →
    nTraces d ⟨cdSet H c ((cdLook H c data).getD [] ++ l) data, [], [], []⟩ =
      nTraces d ⟨data, [], [], []⟩ + if chunkContent c = chunkContent d then l.length else 0
  | [], _ => by simp [nTraces, cdSet, cdLook]
  | (e, x) :: r, hp => by
    have he : Plain e := hp e x (by simp)
    have ih := nTraces_set cf hc (d := d) l r (fun e b hm => hp e b (by simp [hm]))
    simp only [nTraces] at ih ⊢
    by_cases h : ceq H e c = true
    · have hec := (ceq_content cf he hc).mp h
      simp only [cdSet, cdLook, h, if_true, Option.getD_some, List.map_cons, List.sum_cons, hec]
      split <;> simp <;> omega
    · simp only [cdSet, cdLook, h, Bool.false_eq_true, if_false, List.map_cons, List.sum_cons]
      rw [ih]; omega

open Classical in
theorem nTraces_addOne {H : PyHash} (cf : H.CollisionFree) {c d : Chunk} (hc : Plain c) (m : DecMem)
    (hp : ∀ e b, (e, b) ∈ m.data → Plain e) (t : ℚ) :
    nTraces d (m.addOne H c (.one t)) = nTraces d m + if chunkContent c = chunkContent d then 1 else 0 := by
  have := nTraces_set cf hc (d := d) [round4 t] m.data hp
  simp only [nTraces] at this ⊢
  rw [addOne_data]; exact this

theorem sum_modify {α : Type} (f : α → ℕ) (g : α → α) (n : ℕ) : ∀ (l : List α) (i : ℕ), i < l.length →
    (∀ a ∈ l, f (g a) = f a + n) → ((l.modify i g).map f).sum = (l.map f).sum + n
  | [], i, h, _ => by simp at h
  | a :: r, 0, _, hg => by simp [hg a (by simp)]; omega
  | a :: r, i + 1, h, hg => by
    simp only [List.modify_succ_cons, List.map_cons, List.sum_cons]
    rw [sum_modify f g n r i (by simpa using h) (fun b hb => hg b (by simp [hb]))]; omega

theorem speaks_iff {H : PyHash} (cf : H.CollisionFree) (x : VarVal) :
    (!pyEq H x.values .none || optStrTruthy x.vars || !x.negvars.isEmpty || !x.negvalues.isEmpty) = true ↔ Speaks x := by
  have h1 : pyEq H x.values .none = true ↔ (x.values = .none ∨ x.values = .empty) := by
    cases hv : x.values with
    | none => simp [pyEq, Val.view, View.eq]
    | empty => simp [pyEq, Val.view, View.eq]
    | str s => simp [pyEq, Val.view, View.eq]
    | chunk t sl => simp [pyEq, Val.view, View.eq, View.hash, Ne.symm (cf.none_tup _)]
  have h2 : optStrTruthy x.vars = true ↔ ∃ y, x.vars = some y ∧ y ≠ "" := by
    cases x.vars <;> simp [optStrTruthy]
  simp only [Bool.or_eq_true, Bool.not_eq_true', ← Bool.not_eq_true, h1, h2, List.isEmpty_iff, Speaks]
  push Not
  simp only [or_assoc, ne_eq]

theorem mem_removeUnused {H : PyHash} (cf : H.CollisionFree) (c : Chunk) (n : String) (x : VarVal) :
    (n, x) ∈ removeUnused H c ↔ MentionsSlot c n x := by
  simp only [removeUnused, List.mem_filterMap, MentionsSlot]
  constructor
  · rintro ⟨⟨m, s⟩, hm, h⟩
    cases s with
    | empty => simp at h
    | vv y =>
      simp only at h
      split at h
      · next hs => simp only [Option.some.injEq, Prod.mk.injEq] at h; obtain ⟨rfl, rfl⟩ := h; exact ⟨hm, (speaks_iff cf y).mp hs⟩
      · simp at h
  · rintro ⟨hm, hs⟩
    exact ⟨_, hm, by simp only [(speaks_iff cf x).mpr hs, if_true]⟩

theorem removeUnused_sublist (H : PyHash) (c : Chunk) : ((removeUnused H c).map Prod.fst).Sublist (c.slots.map Prod.fst) := by
  simp only [removeUnused]
  induction c.slots with
  | nil => simp
  | cons p r ih =>
    obtain ⟨n, s⟩ := p
    cases s with
    | empty => simp only [List.filterMap_cons, List.map_cons]; exact ih.cons _
    | vv x =>
      simp only [List.filterMap_cons, List.map_cons]
      split
      · exact ih.cons _
      · next h =>
        split at h
        · cases h; exact ih.cons₂ _
        · cases h

theorem resolveAll_ok {P : Py} {bv : BV} {ni : Bool} : ∀ {l : List (String × VarVal)} {vs : List (String × VarVal)},
    resolveAll P bv ni l = .ok vs → vs.map Prod.fst = l.map Prod.fst ∧
      (∀ n x, (n, x) ∈ l → ∃ r, checkBoundVars P bv ni (.vv x) = .ok r ∧ (n, r) ∈ vs) ∧
      (∀ n r, (n, r) ∈ vs → ∃ x, (n, x) ∈ l ∧ checkBoundVars P bv ni (.vv x) = .ok r)
  | [], vs, h => by simp [resolveAll] at h; subst h; simp
  | (n, x) :: r, vs, h => by
    simp only [resolveAll] at h
    split at h
    · cases h
    · next v hv =>
      split at h
      · cases h
      · next vs' hvs =>
        simp only [Except.ok.injEq] at h; subst h
        obtain ⟨h1, h2, h3⟩ := resolveAll_ok hvs
        refine ⟨by simp [h1], ?_, ?_⟩
        · intro m y hm
          rcases List.mem_cons.mp hm with h | h
          · cases h; exact ⟨v, hv, by simp⟩
          · obtain ⟨w, hw, hm'⟩ := h2 m y h; exact ⟨w, hw, by simp [hm']⟩
        · intro m y hm
          rcases List.mem_cons.mp hm with h | h
          · cases h; exact ⟨x, by simp, hv⟩
          · obtain ⟨w, hw, hm'⟩ := h3 m y h; exact ⟨w, by simp [hw], hm'⟩

theorem nodup_dictUpdate {α : Type} : ∀ (e d : List (String × α)), (d.map Prod.fst).Nodup → ((dictUpdate d e).map Prod.fst).Nodup
  | [], d, h => h
  | (n, a) :: r, d, h => nodup_dictUpdate r (aset n a d) (nodup_aset n a d h)

theorem alook_dictUpdate {α : Type} (f : String) : ∀ (e d : List (String × α)), (e.map Prod.fst).Nodup →
    alook f (dictUpdate d e) = (alook f e).or (alook f d)
  | [], d, _ => by simp [dictUpdate, alook]
  | (n, a) :: r, d, h => by
    simp only [List.map_cons, List.nodup_cons] at h
    have ih := alook_dictUpdate f r (aset n a d) h.2
    simp only [dictUpdate, List.foldl_cons] at ih ⊢
    rw [ih, alook_aset]
    by_cases hf : f = n
    · subst hf
      have : alook f r = Option.none := by
        rw [alook_none_iff]; intro b hb; exact h.1 (List.mem_map_of_mem (f := Prod.fst) hb)
      simp [alook, this]
    · have hf' : n ≠ f := Ne.symm hf
      simp [alook, hf, hf']

end Verif
