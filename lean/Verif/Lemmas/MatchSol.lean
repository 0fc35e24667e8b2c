import Verif.Lemmas.Match
/-! Exact matching succeeds iff the constraints have a solution. -/
namespace Verif
open Verif.Spec

theorem plainVal_none : PlainVal .none := by simp [PlainVal]
theorem plainVal_empty : PlainVal .empty := by simp [PlainVal]
theorem plainVal_str (s : String) : PlainVal (.str s) := by simp [PlainVal]

theorem noReq_iff {H : PyHash} (cf : H.CollisionFree) (v : Val) (hv : PlainVal v) :
    (v.truthy = false ∨ pyEq H v .none = true) ↔ NoRequirement v := by
  rw [pyEq_iff cf v .none hv plainVal_none]
  cases v <;> simp [Val.truthy, SameVal, NoRequirement]

theorem accepts_iff {H : PyHash} (cf : H.CollisionFree) (v w : Val) (hv : PlainVal v) (hw : PlainVal w) :
    (v.truthy = false ∨ pyEq H v .none = true ∨ pyEq H v w = true) ↔ Accepts v w := by
  rw [← or_assoc, noReq_iff cf v hv, pyEq_iff cf v w hv hw, Accepts]

theorem keyEq_iff {H : PyHash} (a b : Val) : keyEq H a b = true ↔ a.hash H = b.hash H ∧ pyEq H a b = true := by
  simp [keyEq, View.keyEq, Val.hash, pyEq]

theorem forbids_iff {H : PyHash} (cf : H.CollisionFree) (v w : Val) (hv : PlainVal v) (hw : PlainVal w) :
    negValHit H v w = true ↔ Forbids v w := by
  have h1 := pyEq_iff cf v w hv hw
  have h2 : pyEq H w .empty = true ↔ Noneish w := viewEq_empty cf w
  have h3 : (keyEq H .empty v = true ∨ keyEq H (.str "None") v = true) ↔ Noneish v := by
    rw [keyEq_iff, keyEq_iff, pyEq_iff cf _ v plainVal_empty hv, pyEq_iff cf _ v (plainVal_str _) hv,
      val_hash_eq_iff cf _ v plainVal_empty hv, val_hash_eq_iff cf _ v (plainVal_str _) hv]
    cases v <;> simp [content, SameVal, Noneish, eq_comm]
  simp only [negValHit, Bool.or_eq_true, Bool.and_eq_true, h1, h2, h3, Forbids]

theorem dataChunk_inDomain {d p : Chunk} (hd : DataChunk d) (hc : Covers d p) : InDomain DataVal d p := by
  intro n s w h hw
  obtain ⟨s', hs'⟩ := hc n s h
  rw [slotHas_iff hd.named] at hw
  subst hw
  have := alook_of_mem hd.named hs'
  simp only [matchingVal, this]
  cases s' with
  | empty => exact ⟨plainVal_empty, by simp⟩
  | vv x => exact ⟨((plainSlots_iff _).mp hd.plain n x hs').1, hd.noNone n x hs'⟩

/-- A data chunk has Python's None only for slots it does not have. -/
theorem data_ne_none {d : Chunk} (hd : DataChunk d) {n : String} {s : Slot} (hs : (n, s) ∈ d.slots) :
    matchingVal d n ≠ .none := by
  have hal := alook_of_mem hd.named hs
  cases s with
  | empty => simp [matchingVal, hal]
  | vv y => simp only [matchingVal, hal]; exact hd.noNone n y hs

/-- For data chunks, having the slot is enough. -/
theorem data_noneFilled {p d : Chunk} (hd : DataChunk d) (h : NoneCovered p d) : NoneFilled p d := by
  intro n x w hx hv hw
  obtain ⟨s, hs⟩ := h n x hx hv
  rw [(slotHas_iff hd.named n w).mp hw]
  exact data_ne_none hd hs

theorem matchingVal_data {D : Val → Prop} {d p : Chunk} (hd : Named d) (hc : InDomain D d p) {n : String} {s : Slot}
    (h : (n, s) ∈ p.slots) : D (matchingVal d n) := hc n s _ h ((slotHas_iff hd n _).mpr rfl)

theorem matchingVal_plain {d : Chunk} (hd : Plain d) (n : String) : PlainVal (matchingVal d n) := by
  unfold matchingVal
  split
  · exact plainVal_none
  · exact plainVal_empty
  · next x h => exact ((plainSlots_iff _).mp hd n x (alook_mem h)).1

theorem afterVar_get (bv : BV) (vr : Option String) (mv : Val) (y : String) :
    (afterVar bv vr mv).get y =
      match bv.get y with
      | some b => some b
      | Option.none => if vr = some y ∧ y ≠ "" then some mv else Option.none := by
  unfold afterVar
  cases vr with
  | none => cases bv.get y <;> simp
  | some var =>
    by_cases hv : var = ""
    · subst hv
      simp only [if_true]
      cases bv.get y with
      | none =>
        simp only [Option.some.injEq]
        rw [if_neg]
        rintro ⟨rfl, h⟩; exact h rfl
      | some b => rfl
    · simp only [hv, if_false]
      cases hg : bv.get var with
      | some b =>
        simp only []
        cases hy : bv.get y with
        | some b => rfl
        | none =>
          simp only [Option.some.injEq]
          rw [if_neg]
          rintro ⟨rfl, _⟩
          rw [hg] at hy; cases hy
      | none =>
        simp only [get_bind, Option.some.injEq]
        by_cases h : y = var
        · subst h; simp [hg, hv]
        · simp only [h, if_false, Ne.symm h, false_and]
          cases bv.get y <;> rfl

theorem afterVar_negGet (bv : BV) (vr : Option String) (mv : Val) (y : String) :
    (afterVar bv vr mv).negGet y = bv.negGet y := by
  unfold afterVar
  split
  · rfl
  · split
    · rfl
    · split
      · rfl
      · exact negGet_bind _ _ _ _

theorem afterNeg_get (H : PyHash) (bv : BV) (l : List String) (mv : Val) (y : String) :
    (afterNeg H bv l mv).get y = bv.get y := by
  induction l generalizing bv with
  | nil => rfl
  | cons a r ih => simp only [afterNeg, List.foldl_cons]; rw [← get_negAdd H bv a y mv]; exact ih _

theorem mem_negAdd (H : PyHash) (bv : BV) (x y : String) (mv w : Val) (h : w ∈ (bv.negAdd H x mv).negGet y) :
    w ∈ bv.negGet y ∨ (y = x ∧ w = mv) := by
  rw [negGet_negAdd] at h
  split at h
  · next hy =>
    subst hy
    split at h
    · exact Or.inl h
    · simp only [List.mem_append, List.mem_singleton] at h
      rcases h with h | h
      · exact Or.inl h
      · exact Or.inr ⟨rfl, h⟩
  · exact Or.inl h

theorem negAdd_mono (H : PyHash) (bv : BV) (x y : String) (mv w : Val) (h : w ∈ bv.negGet y) :
    w ∈ (bv.negAdd H x mv).negGet y := by
  rw [negGet_negAdd]
  split
  · next hy => subst hy; split <;> simp [h]
  · exact h

theorem negAdd_new (H : PyHash) (bv : BV) (x : String) (mv : Val) :
    ∃ w ∈ (bv.negAdd H x mv).negGet x, keyEq H w mv = true ∨ w = mv := by
  rw [negGet_negAdd]
  simp only [if_true]
  split
  · next h => obtain ⟨w, hw, hk⟩ := List.any_eq_true.mp h; exact ⟨w, hw, Or.inl hk⟩
  · exact ⟨mv, by simp, Or.inr rfl⟩

theorem mem_afterNeg (H : PyHash) (l : List String) (mv w : Val) (y : String) :
    ∀ bv : BV, w ∈ (afterNeg H bv l mv).negGet y → w ∈ bv.negGet y ∨ (y ∈ l ∧ w = mv) := by
  induction l with
  | nil => intro bv h; exact Or.inl h
  | cons a r ih =>
    intro bv h
    simp only [afterNeg, List.foldl_cons] at h
    rcases ih _ h with h | ⟨h', rfl⟩
    · rcases mem_negAdd H bv a y mv w h with h | ⟨rfl, rfl⟩
      · exact Or.inl h
      · exact Or.inr ⟨by simp, rfl⟩
    · exact Or.inr ⟨by simp [h'], rfl⟩

theorem afterNeg_mono (H : PyHash) (l : List String) (mv w : Val) (y : String) :
    ∀ bv : BV, w ∈ bv.negGet y → w ∈ (afterNeg H bv l mv).negGet y := by
  induction l with
  | nil => intro bv h; exact h
  | cons a r ih =>
    intro bv h
    simp only [afterNeg, List.foldl_cons]
    exact ih _ (negAdd_mono H bv a y mv w h)

theorem afterNeg_new (H : PyHash) (l : List String) (mv : Val) (y : String) (hy : y ∈ l) :
    ∀ bv : BV, ∃ w ∈ (afterNeg H bv l mv).negGet y, keyEq H w mv = true ∨ w = mv := by
  induction l with
  | nil => simp at hy
  | cons a r ih =>
    intro bv
    simp only [List.mem_cons] at hy
    simp only [afterNeg, List.foldl_cons]
    rcases hy with rfl | hy
    · obtain ⟨w, hw, hk⟩ := negAdd_new H bv y mv
      exact ⟨w, afterNeg_mono H r mv w y _ hw, hk⟩
    · exact ih hy _

section
variable {H : PyHash} (cf : H.CollisionFree) {D : Val → Prop} (hD : Domain D)
include cf hD

/-- What one successful slot does to good bindings. -/
theorem slotOK_good {d : Chunk} {bv : BV} {x : String × Slot} (hg : GoodBV D bv) (hmv : D (matchingVal d x.1))
    (h : SlotOK H d bv x) : GoodBV D (afterSlot H d bv x) := by
  have hpos : ∀ y v, (afterSlot H d bv x).get y = some v →
      bv.get y = some v ∨ ((splitting x.2).vars = some y ∧ y ≠ "" ∧ v = matchingVal d x.1) := by
    intro y v hv
    rw [afterSlot, afterNeg_get, afterVar_get] at hv
    cases hb : bv.get y with
    | some b => rw [hb] at hv; simp only at hv; exact Or.inl hv
    | none =>
      rw [hb] at hv; simp only at hv
      split at hv
      · next hc => simp only [Option.some.injEq] at hv; exact Or.inr ⟨hc.1, hc.2, hv.symm⟩
      · cases hv
  have hneg : ∀ y w, w ∈ (afterSlot H d bv x).negGet y →
      w ∈ bv.negGet y ∨ (y ∈ (splitting x.2).negvars ∧ w = matchingVal d x.1) := by
    intro y w hw
    rcases mem_afterNeg H _ _ w y _ hw with h1 | h1
    · rw [afterVar_negGet] at h1; exact Or.inl h1
    · exact Or.inr h1
  refine ⟨?_, ?_, ?_⟩
  · intro y v hv
    rcases hpos y v hv with h1 | ⟨_, _, rfl⟩
    · exact hg.pos y v h1
    · exact hmv
  · intro y w hw
    rcases hneg y w hw with h1 | ⟨_, rfl⟩
    · exact hg.neg y w h1
    · exact hmv
  · intro y v w hv hw hs
    have hv' := hv
    rw [afterSlot, afterNeg_get] at hv'
    have hdv : D v := by
      rcases hpos y v hv with h1 | ⟨_, _, rfl⟩
      · exact hg.pos y v h1
      · exact hmv
    rcases hneg y w hw with hw1 | ⟨hy, rfl⟩
    · rcases hpos y v hv with h1 | ⟨h1, h2, rfl⟩
      · exact hg.ok y v w h1 hw1 hs
      · have := h.posNeg y h1 h2 w hw1
        have hdw := hg.neg y w hw1
        have h3 := (pyEq_dkey hD cf hdw hmv).mpr (sameVal_dkey hs).symm
        rw [this] at h3; cases h3
    · have := h.neg y hy v hv'
      have h3 := (pyEq_dkey hD cf hdv hmv).mpr (sameVal_dkey hs)
      rw [this] at h3; cases h3

/-- Summary of a successful loop over slots. -/
structure LoopFacts (D : Val → Prop) (H : PyHash) (d : Chunk) (bv bv' : BV) (xs : Slots) : Prop where
  good : GoodBV D bv'
  keep : ∀ y v, bv.get y = some v → bv'.get y = some v
  occ : ∀ n s y, (n, s) ∈ xs → (splitting s).vars = some y → y ≠ "" →
    ∃ v, bv'.get y = some v ∧ dkey v = dkey (matchingVal d n)
  negKeep : ∀ y w, w ∈ bv.negGet y → w ∈ bv'.negGet y
  negOcc : ∀ n s y, (n, s) ∈ xs → y ∈ (splitting s).negvars →
    ∃ w ∈ bv'.negGet y, dkey w = dkey (matchingVal d n)
  only : ∀ y v, bv'.get y = some v → bv.get y = some v ∨
    ∃ n s, (n, s) ∈ xs ∧ (splitting s).vars = some y ∧ y ≠ "" ∧ v = matchingVal d n
  negOnly : ∀ y w, w ∈ bv'.negGet y → w ∈ bv.negGet y ∨
    ∃ n s, (n, s) ∈ xs ∧ y ∈ (splitting s).negvars ∧ w = matchingVal d n
  val : ∀ n s, (n, s) ∈ xs → ((splitting s).values.truthy = false ∨ pyEq H (splitting s).values .none = true ∨
    pyEq H (splitting s).values (matchingVal d n) = true)
  negval : ∀ n s, (n, s) ∈ xs → ∀ w ∈ (splitting s).negvalues, negValHit H w (matchingVal d n) = false

theorem allOK_facts {d : Chunk} (xs : Slots) (hmv : ∀ n s, (n, s) ∈ xs → D (matchingVal d n)) :
    ∀ bv, GoodBV D bv → AllOK H d bv xs → LoopFacts D H d bv (afterSlots H d bv xs) xs := by
  induction xs with
  | nil =>
    intro bv hg _
    exact ⟨hg, fun _ _ h => h, by simp, fun _ _ h => h, by simp, fun _ _ h => Or.inl h, fun _ _ h => Or.inl h, by simp,
      by simp⟩
  | cons x r ih =>
    obtain ⟨n0, s0⟩ := x
    intro bv hg hok
    obtain ⟨h1, h2⟩ := hok
    have hm0 : D (matchingVal d n0) := hmv n0 s0 (by simp)
    have hg' := slotOK_good cf hD hg hm0 h1
    have F := ih (fun n s h => hmv n s (by simp [h])) _ hg' h2
    have hkeep1 : ∀ y v, bv.get y = some v → (afterSlot H d bv (n0, s0)).get y = some v := by
      intro y v h; rw [afterSlot, afterNeg_get, afterVar_get, h]
    have hnk1 : ∀ y w, w ∈ bv.negGet y → w ∈ (afterSlot H d bv (n0, s0)).negGet y := by
      intro y w h
      apply afterNeg_mono
      rw [afterVar_negGet]; exact h
    have hfold : afterSlots H d bv ((n0, s0) :: r) = afterSlots H d (afterSlot H d bv (n0, s0)) r := by
      simp [afterSlots]
    rw [hfold]
    refine ⟨F.good, fun y v h => F.keep y v (hkeep1 y v h), ?_, fun y w h => F.negKeep y w (hnk1 y w h), ?_, ?_, ?_,
      ?_, ?_⟩
    · intro n s y hm hy hy'
      simp only [List.mem_cons, Prod.mk.injEq] at hm
      rcases hm with ⟨rfl, rfl⟩ | hm
      · cases hb : bv.get y with
        | some b =>
          refine ⟨b, F.keep y b (hkeep1 y b hb), ?_⟩
          exact (pyEq_dkey hD cf (hg.pos y b hb) hm0).mp (h1.posEq y hy hy' b hb)
        | none =>
          refine ⟨matchingVal d n, F.keep y _ ?_, rfl⟩
          rw [afterSlot, afterNeg_get, afterVar_get, hb]
          simp [hy, hy']
      · exact F.occ n s y hm hy hy'
    · intro n s y hm hy
      simp only [List.mem_cons, Prod.mk.injEq] at hm
      rcases hm with ⟨rfl, rfl⟩ | hm
      · obtain ⟨w, hw, hk⟩ := afterNeg_new H (splitting s).negvars (matchingVal d n) y hy
          (afterVar bv (splitting s).vars (matchingVal d n))
        refine ⟨w, F.negKeep y w hw, ?_⟩
        rcases hk with hk | rfl
        · have hdw := hg'.neg y w hw
          exact (pyEq_dkey hD cf hdw hm0).mp ((keyEq_iff _ _).mp hk).2
        · rfl
      · exact F.negOcc n s y hm hy
    · intro y v hv
      rcases F.only y v hv with h | ⟨n, s, hm, h3, h5, h4⟩
      · rw [afterSlot, afterNeg_get, afterVar_get] at h
        cases hb : bv.get y with
        | some b => rw [hb] at h; simp only at h; exact Or.inl h
        | none =>
          rw [hb] at h; simp only at h
          split at h
          · next hc =>
            simp only [Option.some.injEq] at h
            exact Or.inr ⟨n0, s0, by simp, hc.1, hc.2, h.symm⟩
          · cases h
      · exact Or.inr ⟨n, s, by simp [hm], h3, h5, h4⟩
    · intro y w hw
      rcases F.negOnly y w hw with h | ⟨n, s, hm, h3, h4⟩
      · rcases mem_afterNeg H _ _ w y _ h with h | ⟨h', rfl⟩
        · rw [afterVar_negGet] at h; exact Or.inl h
        · exact Or.inr ⟨n0, s0, by simp, h', rfl⟩
      · exact Or.inr ⟨n, s, by simp [hm], h3, h4⟩
    · intro n s hm
      simp only [List.mem_cons, Prod.mk.injEq] at hm
      rcases hm with ⟨rfl, rfl⟩ | hm
      · exact h1.val
      · exact F.val n s hm
    · intro n s hm
      simp only [List.mem_cons, Prod.mk.injEq] at hm
      rcases hm with ⟨rfl, rfl⟩ | hm
      · exact h1.negval
      · exact F.negval n s hm

theorem facts_solution {d p : Chunk} (hd : Named d) (hpl : Plain d) (hc : InDomain D d p) (hp : PlainLits p) {bv bv' : BV}
    (F : LoopFacts D H d bv bv' p.slots) : Solution D bv p d bv'.get := by
  refine ⟨fun y v h => F.good.pos y v h, F.keep, ?_, ?_, ?_, ?_⟩
  · intro n x y w hm hy hy' hw
    rw [slotHas_iff hd] at hw; subst hw
    obtain ⟨v, hv, hk⟩ := F.occ n _ y hm hy hy'
    exact ⟨v, hv, dkey_sameVal hD (F.good.pos y v hv) (matchingVal_data hd hc hm) hk⟩
  · intro n x y w v hm hy hw hv hs
    rw [slotHas_iff hd] at hw; subst hw
    obtain ⟨w', hw', hk⟩ := F.negOcc n _ y hm hy
    refine F.good.ok y v w' hv hw' ?_
    exact dkey_sameVal hD (F.good.pos y v hv) (F.good.neg y w' hw') ((sameVal_dkey hs).trans hk.symm)
  · intro y v w hv hw
    exact F.good.ok y v w hv (F.negKeep y w hw)
  · intro n x w hm hw
    rw [slotHas_iff hd] at hw; subst hw
    have hpl := matchingVal_plain hpl n
    refine ⟨(accepts_iff cf _ _ (hp n x hm).1 hpl).mp (F.val n _ hm), ?_⟩
    intro v hv hf
    have h1 := F.negval n _ hm v hv
    rw [(forbids_iff cf v _ ((hp n x hm).2 v hv) hpl).mpr hf] at h1; cases h1

/-- If the constraints have a solution, the loop succeeds. -/
theorem solution_allOK {d : Chunk} (σ : String → Option Val)
    (hdata : ∀ y v, σ y = some v → D v) (xs : Slots) (hmv : ∀ n s, (n, s) ∈ xs → D (matchingVal d n))
    (hpl : ∀ n x, (n, SlotOf.vv x) ∈ xs → PlainVal x.values ∧ ∀ v ∈ x.negvalues, PlainVal v)
    (hpos : ∀ n x y, (n, SlotOf.vv x) ∈ xs → x.vars = some y → y ≠ "" → ∃ v, σ y = some v ∧ SameVal v (matchingVal d n))
    (hneg : ∀ n x y v, (n, SlotOf.vv x) ∈ xs → y ∈ x.negvars → σ y = some v → ¬ SameVal v (matchingVal d n))
    (hlit : ∀ n x, (n, SlotOf.vv x) ∈ xs → Accepts x.values (matchingVal d n) ∧
      ∀ v ∈ x.negvalues, ¬ Forbids v (matchingVal d n)) :
    ∀ bv, GoodBV D bv → (∀ y b, bv.get y = some b → ∃ v, σ y = some v ∧ dkey v = dkey b) →
      (∀ y v w, σ y = some v → w ∈ bv.negGet y → dkey v ≠ dkey w) → AllOK H d bv xs := by
  induction xs with
  | nil => intro bv _ _ _; trivial
  | cons x r ih =>
    obtain ⟨n, s⟩ := x
    intro bv hg hcompat hexcl
    have hm0 : D (matchingVal d n) := hmv n s (by simp)
    have hpos0 : ∀ y, (splitting s).vars = some y → y ≠ "" → ∃ v, σ y = some v ∧ dkey v = dkey (matchingVal d n) := by
      intro y hy hy'
      cases s with
      | empty => simp [splitting] at hy
      | vv x =>
        obtain ⟨v, hv, hs⟩ := hpos n x y (by simp) hy hy'
        exact ⟨v, hv, sameVal_dkey hs⟩
    have hneg0 : ∀ y v, y ∈ (splitting s).negvars → σ y = some v → dkey v ≠ dkey (matchingVal d n) := by
      intro y v hy hv hk
      cases s with
      | empty => simp [splitting] at hy
      | vv x => exact hneg n x y v (by simp) hy hv (dkey_sameVal hD (hdata y v hv) hm0 hk)
    have hcompat1 : ∀ y b, (afterVar bv (splitting s).vars (matchingVal d n)).get y = some b →
        ∃ v, σ y = some v ∧ dkey v = dkey b := by
      intro y b hb
      rw [afterVar_get] at hb
      cases hby : bv.get y with
      | some b' => rw [hby] at hb; simp only [Option.some.injEq] at hb; subst hb; exact hcompat y _ hby
      | none =>
        rw [hby] at hb; simp only at hb
        split at hb
        · next hc =>
          simp only [Option.some.injEq] at hb; subst hb
          exact hpos0 y hc.1 hc.2
        · cases hb
    have hdat1 : ∀ y b, (afterVar bv (splitting s).vars (matchingVal d n)).get y = some b → D b := by
      intro y b hb
      rw [afterVar_get] at hb
      cases hby : bv.get y with
      | some b' => rw [hby] at hb; simp only [Option.some.injEq] at hb; subst hb; exact hg.pos y _ hby
      | none =>
        rw [hby] at hb; simp only at hb
        split at hb
        · simp only [Option.some.injEq] at hb; subst hb; exact hm0
        · cases hb
    have hok : SlotOK H d bv (n, s) := by
      refine ⟨?_, ?_, ?_, ?_, ?_⟩
      · intro y hy hy' w hw
        obtain ⟨v, hv, hk⟩ := hpos0 y hy hy'
        by_contra hne
        have := (pyEq_dkey hD cf (hg.neg y w hw) hm0).mp (by simpa using hne)
        exact hexcl y v w hv hw (hk.trans this.symm)
      · intro y hy hy' b hb
        obtain ⟨v, hv, hk⟩ := hpos0 y hy hy'
        obtain ⟨v', hv', hk'⟩ := hcompat y b hb
        rw [hv] at hv'; cases hv'
        exact (pyEq_dkey hD cf (hg.pos y b hb) hm0).mpr (hk'.symm.trans hk)
      · intro y hy b hb
        obtain ⟨v, hv, hk⟩ := hcompat1 y b hb
        by_contra hne
        have := (pyEq_dkey hD cf (hdat1 y b hb) hm0).mp (by simpa using hne)
        exact hneg0 y v hy hv (hk.trans this)
      · cases s with
        | empty => left; rfl
        | vv x =>
          exact (accepts_iff cf _ _ (hpl n x (by simp)).1 (hD.plain _ hm0)).mpr (hlit n x (by simp)).1
      · cases s with
        | empty => simp [splitting]
        | vv x =>
          intro w hw
          by_contra hne
          exact (hlit n x (by simp)).2 w hw ((forbids_iff cf _ _ ((hpl n x (by simp)).2 w hw) (hD.plain _ hm0)).mp (by simpa using hne))
    refine ⟨hok, ?_⟩
    refine ih (fun n s h => hmv n s (by simp [h])) (fun n x h => hpl n x (by simp [h]))
      (fun n x y h => hpos n x y (by simp [h])) (fun n x y v h => hneg n x y v (by simp [h]))
      (fun n x h => hlit n x (by simp [h])) _ (slotOK_good cf hD hg hm0 hok) ?_ ?_
    · intro y b hb
      rw [afterSlot, afterNeg_get] at hb
      exact hcompat1 y b hb
    · intro y v w hv hw
      rcases mem_afterNeg H _ _ w y _ hw with h | ⟨h, rfl⟩
      · rw [afterVar_negGet] at h; exact hexcl y v w hv h
      · exact hneg0 y v h hv

theorem solution_to_allOK {d p : Chunk} (hd : Named d) (hc : InDomain D d p) (hp : PlainLits p) {bv : BV}
    (hg : GoodBV D bv) {σ : String → Option Val} (S : Solution D bv p d σ) : AllOK H d bv p.slots := by
  have hh : ∀ n, SlotHas d n (matchingVal d n) := fun n => (slotHas_iff hd n _).mpr rfl
  refine solution_allOK cf hD σ S.data p.slots (fun n s h => matchingVal_data hd hc h) hp
    (fun n x y h hy hy' => S.pos n x y _ h hy hy' (hh n)) (fun n x y v h hy => S.neg n x y _ v h hy (hh n))
    (fun n x h => S.lit n x _ h (hh n)) bv hg (fun y b hb => ⟨b, S.ext y b hb, rfl⟩) ?_
  intro y v w hv hw hk
  exact S.excl y v w hv hw (dkey_sameVal hD (S.data y v hv) (hg.neg y w hw) hk)

end

end Verif
