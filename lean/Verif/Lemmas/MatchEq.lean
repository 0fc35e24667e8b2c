import Verif.Lemmas.MatchSol
/-! What the equality shortcut of `<=` implies. -/
namespace Verif
open Verif.Spec

theorem mem_hashItems (H : PyHash) (lk : String → Option View) (sl : Slots) (i : HItem) :
    i ∈ hashItems H lk (viewSlots H sl) ↔ ∃ n x, (n, SlotOf.vv x) ∈ sl ∧
      VVOf.nonEmpty H ⟨x.values.view H, x.vars, viewVals H x.negvalues, x.negvars⟩ = true ∧
      i ∈ slotItems H lk n ⟨x.values.view H, x.vars, viewVals H x.negvalues, x.negvars⟩ := by
  induction sl with
  | nil => simp [viewSlots, hashItems]
  | cons a r ih =>
    obtain ⟨m, s⟩ := a
    cases s with
    | empty => simp [viewSlots, viewSlot, hashItems, ih]
    | vv y =>
      obtain ⟨v, vr, nv, nvr⟩ := y
      simp only [viewSlots, viewSlot, hashItems, List.mem_append, ih, List.mem_cons, Prod.mk.injEq, SlotOf.vv.injEq]
      constructor
      · rintro (h | ⟨n, x, h1, h2⟩)
        · split at h
          · next hn => exact ⟨m, ⟨v, vr, nv, nvr⟩, Or.inl ⟨rfl, rfl⟩, hn, h⟩
          · simp at h
        · exact ⟨n, x, Or.inr h1, h2⟩
      · rintro ⟨n, x, (⟨rfl, rfl⟩ | h1), h2, h3⟩
        · left; rw [if_pos h2]; exact h3
        · exact Or.inr ⟨n, x, h1, h2, h3⟩

theorem slotItems_slot (H : PyHash) (lk : String → Option View) (n : String) (x : VVOf View) (i : HItem)
    (h : i ∈ slotItems H lk n x) : i.slot = n := by
  simp only [slotItems, unresolvedItems, List.mem_append, List.mem_filterMap, List.mem_map] at h
  rcases h with ((⟨c, _, h⟩ | ⟨c, _, h⟩) | ⟨c, _, rfl⟩) | ⟨c, _, rfl⟩
  · split at h
    · cases h
    · simp only [Option.some.injEq] at h; subst h; rfl
  · split at h
    · cases h
    · simp only [Option.some.injEq] at h; subst h; rfl
  · rfl
  · rfl

theorem mem_setHashes (H : PyHash) (s : List View) (h : Int) : h ∈ View.setHashes H s ↔ ∃ w ∈ s, w.hash H = h := by
  simp [View.setHashes, (H.order_perm _).mem_iff]

theorem value_item (H : PyHash) (lk : String → Option View) (n : String) (x : VVOf View) (w : View)
    (h : w ∈ slotVals H lk x) : (⟨n, .values, w.hash H⟩ : HItem) ∈ slotItems H lk n x := by
  simp only [slotItems, List.mem_append, List.mem_map]
  exact Or.inl (Or.inr ⟨w.hash H, (mem_setHashes H _ _).mpr ⟨w, h, rfl⟩, rfl⟩)

theorem negvalue_item (H : PyHash) (lk : String → Option View) (n : String) (x : VVOf View) (w : View)
    (h : w ∈ slotNegs H lk x) : (⟨n, .negvalues, w.hash H⟩ : HItem) ∈ slotItems H lk n x := by
  simp only [slotItems, List.mem_append, List.mem_map]
  exact Or.inr ⟨w.hash H, (mem_setHashes H _ _).mpr ⟨w, h, rfl⟩, rfl⟩

theorem setAdd_mem (H : PyHash) (s : List View) (v : View) : ∃ w ∈ View.setAdd H s v, w.hash H = v.hash H := by
  unfold View.setAdd
  split
  · next h =>
    obtain ⟨w, hw, hk⟩ := List.any_eq_true.mp h
    simp only [View.keyEq, Bool.and_eq_true, beq_iff_eq] at hk
    exact ⟨w, hw, hk.1⟩
  · exact ⟨v, by simp, rfl⟩

theorem setAdd_mono (H : PyHash) (s : List View) (v w : View) (h : w ∈ s) : w ∈ View.setAdd H s v := by
  unfold View.setAdd
  split
  · exact h
  · simp [h]

theorem foldl_setAdd_mono (H : PyHash) (l s : List View) (w : View) (h : w ∈ s) : w ∈ l.foldl (View.setAdd H) s := by
  induction l generalizing s with
  | nil => exact h
  | cons a r ih => exact ih _ (setAdd_mono H s a w h)

theorem foldl_setAdd_mem (H : PyHash) (l s : List View) (v : View) (h : v ∈ l) :
    ∃ w ∈ l.foldl (View.setAdd H) s, w.hash H = v.hash H := by
  induction l generalizing s with
  | nil => simp at h
  | cons a r ih =>
    simp only [List.mem_cons] at h
    simp only [List.foldl_cons]
    rcases h with rfl | h
    · obtain ⟨w, hw, hh⟩ := setAdd_mem H s v
      exact ⟨w, foldl_setAdd_mono H r _ w hw, hh⟩
    · exact ih _ h

theorem content_sameVal {a b : Val} (h : content a = content b) (hb : ¬ Noneish b) : SameVal a b := by
  cases a <;> cases b <;> simp_all [content, Noneish, SameVal]

/-- A variable name that `hash_func` treats properly: one letter, or some letter of it is not itself a bound variable. -/
def CharSafe (bv : BV) (y : String) : Prop :=
  (∃ c : Char, y = c.toString) ∨ ∃ c ∈ y.toList, bv.get c.toString = Option.none

/-- What the hash shortcut implies about each slot. -/
theorem eq_slot {H : PyHash} (cf : H.CollisionFree) {p d : Chunk} {bv : BV} (hdp : Plain d) (hdn : Named d) (hp : Named p)
    (hpl : PlainLits p) (hg : ∀ y v, bv.get y = some v → PlainVal v) (heq : p.eq H bv d = true) {n : String} {x : VarVal}
    (hx : (n, SlotOf.vv x) ∈ p.slots) (hsafe : ∀ y, x.vars = some y → CharSafe bv y)
    (hnone : x.values = .str "None" → (x.vars = Option.none ∨ x.vars = some "") ∧ matchingVal d n ≠ .none) :
    x.negvars = [] ∧ x.negvalues = [] ∧
    (∀ y, x.vars = some y → y ≠ "" → ∃ v, bv.get y = some v ∧ SameVal v (matchingVal d n)) ∧
    Accepts x.values (matchingVal d n) := by
  have hitems : hashItems H (fun n => (bv.get n).map (Val.view H)) (viewSlots H p.slots) =
      (valuePairs d.slots).map (fun p => (⟨p.1, .values, p.2.hash H⟩ : HItem)) := by
    have h1 := hashItems_plain cf (fun n => (BV.init.get n).map (Val.view H)) d.slots hdp
    rw [← h1]
    simp only [Chunk.eq, Chunk.hash, beq_iff_eq] at heq
    exact cf.tup_inj _ _ heq
  set lk : String → Option View := fun n => (bv.get n).map (Val.view H) with hlk
  have hback : ∀ i, i ∈ slotItems H lk n ⟨x.values.view H, x.vars, viewVals H x.negvalues, x.negvars⟩ →
      VVOf.nonEmpty H ⟨x.values.view H, x.vars, viewVals H x.negvalues, x.negvars⟩ = true →
      ∃ v, (n, v) ∈ valuePairs d.slots ∧ i = ⟨n, .values, v.hash H⟩ := by
    intro i hi hne
    have hm := (mem_hashItems H lk p.slots i).mpr ⟨n, x, hx, hne, hi⟩
    rw [hitems] at hm
    obtain ⟨⟨m, v⟩, hv, rfl⟩ := List.mem_map.mp hm
    have := slotItems_slot H lk n _ _ hi
    simp only at this; subst this
    exact ⟨v, hv, rfl⟩
  have hmv : ∀ v, (n, v) ∈ valuePairs d.slots → v = matchingVal d n ∧ ¬ Noneish v ∧ PlainVal v := by
    intro v hv
    obtain ⟨y, hy, rfl, hn⟩ := (mem_valuePairs _ _ _).mp hv
    refine ⟨?_, hn, plainVal_valuePairs hdp hv⟩
    simp [matchingVal, alook_of_mem hdn hy]
  have hnv : x.negvars = [] := by
    by_contra hne
    obtain ⟨y, hy⟩ := List.exists_mem_of_ne_nil _ hne
    have hnE : VVOf.nonEmpty H ⟨x.values.view H, x.vars, viewVals H x.negvalues, x.negvars⟩ = true := by
      simp [VVOf.nonEmpty, hne]
    cases hl : lk y with
    | none =>
      have : (⟨n, .negvars, H.str y⟩ : HItem) ∈ slotItems H lk n
          ⟨x.values.view H, x.vars, viewVals H x.negvalues, x.negvars⟩ := by
        simp only [slotItems, unresolvedItems, List.mem_append, List.mem_filterMap]
        exact Or.inl (Or.inl (Or.inr ⟨y, hy, by simp [hl]⟩))
      obtain ⟨v, _, h⟩ := hback _ this hnE
      simp at h
    | some w =>
      have hw : w ∈ x.negvars.filterMap lk := List.mem_filterMap.mpr ⟨y, hy, hl⟩
      obtain ⟨w', hw', _⟩ := foldl_setAdd_mem H (x.negvars.filterMap lk) [] w hw
      have := negvalue_item H lk n ⟨x.values.view H, x.vars, viewVals H x.negvalues, x.negvars⟩ w'
        (foldl_setAdd_mono H _ _ _ hw')
      obtain ⟨v, _, h⟩ := hback _ this hnE
      simp at h
  have hnl : x.negvalues = [] := by
    by_contra hne
    obtain ⟨w, hw⟩ := List.exists_mem_of_ne_nil _ hne
    have hne' : viewVals H x.negvalues ≠ [] := by rw [viewVals_eq]; simpa using hne
    have hnE : VVOf.nonEmpty H ⟨x.values.view H, x.vars, viewVals H x.negvalues, x.negvars⟩ = true := by
      simp [VVOf.nonEmpty, hne']
    have hw2 : w.view H ∈ viewVals H x.negvalues := by rw [viewVals_eq]; exact List.mem_map.mpr ⟨w, hw, rfl⟩
    obtain ⟨w', hw', _⟩ := foldl_setAdd_mem H (viewVals H x.negvalues)
      ((x.negvars.filterMap lk).foldl (View.setAdd H) []) _ hw2
    have := negvalue_item H lk n ⟨x.values.view H, x.vars, viewVals H x.negvalues, x.negvars⟩ w' hw'
    obtain ⟨v, _, h⟩ := hback _ this hnE
    simp at h
  refine ⟨hnv, hnl, ?_, ?_⟩
  · intro y hy hy'
    have hT : optStrTruthy x.vars = true := by rw [hy]; simp [optStrTruthy, hy']
    have hnE : VVOf.nonEmpty H ⟨x.values.view H, x.vars, viewVals H x.negvalues, x.negvars⟩ = true := by
      simp [VVOf.nonEmpty, hT]
    have hchars : slotChars ⟨x.values.view H, x.vars, viewVals H x.negvalues, x.negvars⟩ =
        y.toList.map (fun c => c.toString) := by
      simp only [slotChars, hT, if_true]; rw [hy]; rfl
    rcases hsafe y hy with ⟨c, hyc⟩ | ⟨c, hc, hcb⟩
    · have hchars' : slotChars ⟨x.values.view H, x.vars, viewVals H x.negvalues, x.negvars⟩ = [y] := by
        rw [hchars, hyc]; simp [Char.toString]
      cases hb : bv.get y with
      | none =>
        have : (⟨n, .vars, H.str y⟩ : HItem) ∈ slotItems H lk n
            ⟨x.values.view H, x.vars, viewVals H x.negvalues, x.negvars⟩ := by
          simp only [slotItems, unresolvedItems, List.mem_append, List.mem_filterMap, hchars']
          exact Or.inl (Or.inl (Or.inl ⟨y, by simp, by simp [hlk, hb]⟩))
        obtain ⟨v, _, h⟩ := hback _ this hnE
        simp at h
      | some b =>
        refine ⟨b, rfl, ?_⟩
        have hmem : b.view H ∈ slotVals H lk ⟨x.values.view H, x.vars, viewVals H x.negvalues, x.negvars⟩ := by
          have h0 : b.view H ∈ ((slotChars ⟨x.values.view H, x.vars, viewVals H x.negvalues, x.negvars⟩).filterMap lk).foldl
              (View.setAdd H) [] := by
            rw [hchars']
            simp [hlk, hb, View.setAdd]
          simp only [slotVals]
          split
          · exact h0
          · exact setAdd_mono H _ _ _ h0
        obtain ⟨v, hv, h⟩ := hback _ (value_item H lk n _ _ hmem) hnE
        obtain ⟨rfl, hn, hpv⟩ := hmv v hv
        simp only [HItem.mk.injEq, true_and] at h
        exact content_sameVal ((val_hash_eq_iff cf b _ (hg y b hb) hpv).mp h) hn
    · have : (⟨n, .vars, H.str c.toString⟩ : HItem) ∈ slotItems H lk n
          ⟨x.values.view H, x.vars, viewVals H x.negvalues, x.negvars⟩ := by
        simp only [slotItems, unresolvedItems, List.mem_append, List.mem_filterMap, hchars, List.mem_map]
        exact Or.inl (Or.inl (Or.inl ⟨c.toString, ⟨c, hc, rfl⟩, by simp only [hlk, hcb, Option.map_none]⟩))
      obtain ⟨v, _, h⟩ := hback _ this hnE
      simp at h
  · by_cases hN : Noneish x.values
    · cases hxv : x.values with
      | none => exact Or.inl trivial
      | empty => exact Or.inl trivial
      | chunk t sl => rw [hxv] at hN; exact hN.elim
      | str s =>
        rw [hxv] at hN
        simp only [Noneish] at hN
        subst hN
        obtain ⟨hvr, hne⟩ := hnone hxv
        right
        -- the slot of `d` must be empty
        have hdn : Noneish (matchingVal d n) := by
          by_contra hcon
          cases hal : alook n d.slots with
          | none => exact hne (by simp [matchingVal, hal])
          | some s =>
          cases s with
          | empty => simp [matchingVal, hal, Noneish] at hcon
          | vv y =>
            have hs := alook_mem hal
            have hmvy : matchingVal d n = y.values := by simp [matchingVal, hal]
            have hm : (n, y.values) ∈ valuePairs d.slots :=
              (mem_valuePairs _ _ _).mpr ⟨y, hs, rfl, by rw [← hmvy]; exact hcon⟩
            have : (⟨n, .values, y.values.hash H⟩ : HItem) ∈ hashItems H lk (viewSlots H p.slots) := by
              rw [hitems]; exact List.mem_map.mpr ⟨_, hm, rfl⟩
            obtain ⟨n', x', hx', hne', hi'⟩ := (mem_hashItems H lk p.slots _).mp this
            have := slotItems_slot H lk n' _ _ hi'
            simp only at this; subst this
            have h1 := alook_of_mem hp hx
            have h2 := alook_of_mem hp hx'
            rw [h1] at h2
            simp only [Option.some.injEq, SlotOf.vv.injEq] at h2
            subst h2
            have hvr' : optStrTruthy x.vars = false := by rcases hvr with h | h <;> rw [h] <;> rfl
            simp [VVOf.nonEmpty, hnv, hnl, hvr', hxv, Val.view, View.eq, viewVals] at hne'
        revert hdn hne
        cases matchingVal d n <;> simp [Noneish, SameVal, eq_comm]
    · have hEq : View.eq H (x.values.view H) .empty = false := by
        have := viewEq_empty cf x.values
        simpa [hN] using this
      have hnE : VVOf.nonEmpty H ⟨x.values.view H, x.vars, viewVals H x.negvalues, x.negvars⟩ = true := by
        simp [VVOf.nonEmpty, hEq]
      right
      obtain ⟨w, hw, hh⟩ := setAdd_mem H
        (((slotChars ⟨x.values.view H, x.vars, viewVals H x.negvalues, x.negvars⟩).filterMap lk).foldl (View.setAdd H) [])
        (x.values.view H)
      have hmem : w ∈ slotVals H lk ⟨x.values.view H, x.vars, viewVals H x.negvalues, x.negvars⟩ := by
        simp only [slotVals, hEq]
        exact hw
      obtain ⟨v, hv, h⟩ := hback _ (value_item H lk n _ _ hmem) hnE
      obtain ⟨rfl, hn, hpv⟩ := hmv v hv
      simp only [HItem.mk.injEq, true_and] at h
      refine content_sameVal ((val_hash_eq_iff cf _ _ (hpl n x hx).1 hpv).mp ?_) hn
      rw [← h, hh]; rfl

end Verif
