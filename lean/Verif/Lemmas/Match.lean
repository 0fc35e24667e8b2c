import Verif.Lemmas.Chunk
/-! Helper lemmas about exact matching. -/
namespace Verif
open Verif.Spec

/-- Equality class of a data value. -/
def dkey : Val → Content
  | .none => .none
  | .empty => .none
  | .str s => if s = "None" then .none else .str s
  | .chunk _ sl => .chunk (contentSlots sl)

theorem sameVal_dkey {a b : Val} (h : SameVal a b) : dkey a = dkey b := by
  cases a <;> cases b <;> simp_all [SameVal, dkey]

theorem dataDomain : Domain DataVal := ⟨fun _ h => h.1, fun h => absurd rfl h.2⟩

theorem noNoneDomain : Domain NoNoneStr := ⟨fun _ h => h.1, fun _ h => h.2 rfl⟩

theorem dkey_sameVal {D : Val → Prop} (hD : Domain D) {a b : Val} (ha : D a) (hb : D b) (h : dkey a = dkey b) : SameVal a b := by
  cases a with
  | none =>
    cases b with
    | none => simp [SameVal]
    | empty => simp [SameVal]
    | str s =>
      by_cases hs : s = "None"
      · subst hs; exact absurd hb (hD.noClash ha)
      · simp [dkey, hs] at h
    | chunk t sl => simp [dkey] at h
  | empty =>
    cases b with
    | none => simp [SameVal]
    | empty => simp [SameVal]
    | str s => by_contra hs; simp [SameVal] at hs; simp [dkey, hs] at h
    | chunk t sl => simp [dkey] at h
  | str s =>
    cases b with
    | none =>
      by_cases hs : s = "None"
      · subst hs; exact absurd ha (hD.noClash hb)
      · simp [dkey, hs] at h
    | empty => by_contra hs; simp [SameVal] at hs; simp [dkey, hs] at h
    | str t =>
      simp only [dkey] at h
      simp only [SameVal]
      split at h <;> split at h <;> simp_all
    | chunk t sl => simp only [dkey] at h; split at h <;> simp_all
  | chunk t sl =>
    cases b with
    | none => simp [dkey] at h
    | empty => simp [dkey] at h
    | str s => simp only [dkey] at h; split at h <;> simp_all
    | chunk t' sl' => simpa [dkey, SameVal] using h

theorem sameVal_iff_dkey {D : Val → Prop} (hD : Domain D) {a b : Val} (ha : D a) (hb : D b) : SameVal a b ↔ dkey a = dkey b :=
  ⟨sameVal_dkey, dkey_sameVal hD ha hb⟩

theorem pyEq_dkey {D : Val → Prop} (hD : Domain D) {H : PyHash} (cf : H.CollisionFree) {a b : Val} (ha : D a) (hb : D b) :
    pyEq H a b = true ↔ dkey a = dkey b := by
  rw [pyEq_iff cf a b (hD.plain a ha) (hD.plain b hb), sameVal_iff_dkey hD ha hb]

theorem alook_aset {α : Type} (n m : String) (a : α) (l : List (String × α)) :
    alook m (aset n a l) = if m = n then some a else alook m l := by
  induction l with
  | nil =>
    simp only [aset, alook]
    by_cases h : n = m
    · simp [h]
    · simp [h, Ne.symm h]
  | cons b r ih =>
    obtain ⟨k, b⟩ := b
    simp only [aset]
    by_cases h : k = n
    · subst h
      simp only [if_true, alook]
      by_cases h2 : k = m
      · simp [h2]
      · simp [h2, Ne.symm h2]
    · simp only [h, if_false, alook, ih]
      by_cases h2 : k = m
      · subst h2; simp [h]
      · simp [h2]

theorem get_bind (bv : BV) (x y : String) (v : Val) : (bv.bind x v).get y = if y = x then some v else bv.get y := by
  simp [BV.bind, BV.get, alook_aset]

theorem negGet_bind (bv : BV) (x y : String) (v : Val) : (bv.bind x v).negGet y = bv.negGet y := by
  simp [BV.bind, BV.negGet]

theorem get_negAdd (H : PyHash) (bv : BV) (x y : String) (v : Val) : (bv.negAdd H x v).get y = bv.get y := by
  simp [BV.negAdd, BV.get]

theorem negGet_negAdd (H : PyHash) (bv : BV) (x y : String) (v : Val) :
    (bv.negAdd H x v).negGet y =
      if y = x then (if (bv.negGet x).any (fun w => keyEq H w v) then bv.negGet x else bv.negGet x ++ [v])
      else bv.negGet y := by
  simp only [BV.negAdd, BV.negGet, alook_aset]
  split <;> rfl

theorem loopE_error_or {α : Type} (f : MState → α → Except BV MState) (st : MState) (l : List α) :
    (∃ st', loopE f st l = .ok st') ∨ (∃ bv, loopE f st l = .error bv) := by
  cases loopE f st l with
  | ok a => exact Or.inl ⟨a, rfl⟩
  | error b => exact Or.inr ⟨b, rfl⟩

/-- A loop that keeps the state when every body run does, and otherwise fails. -/
theorem loopE_check {α : Type} (f : MState → α → Except BV MState) (P : α → Prop) (st : MState) (l : List α)
    (hok : ∀ a ∈ l, P a → f st a = .ok st) (herr : ∀ a ∈ l, ¬ P a → ∃ bv, f st a = .error bv) (st' : MState) :
    loopE f st l = .ok st' ↔ (∀ a ∈ l, P a) ∧ st' = st := by
  induction l with
  | nil => simp [loopE, eq_comm]
  | cons a r ih =>
    have ih := ih (fun a ha => hok a (List.mem_cons_of_mem _ ha)) (fun a ha => herr a (List.mem_cons_of_mem _ ha))
    by_cases hp : P a
    · rw [loopE, hok a (by simp) hp]
      simp only [ih, List.mem_cons, forall_eq_or_imp, hp, true_and]
    · obtain ⟨bv, hb⟩ := herr a (by simp) hp
      rw [loopE, hb]
      simp [hp]

section Exact
variable (H : PyHash) (sims : SimTable)

theorem penalise_exact (st : MState) (a b : Val) : penalise H (exactCfg sims) st a b = .error st.bv := by
  simp [penalise, exactCfg]

theorem matchVarNeg_loop (mv : Val) (st st' : MState) (l : List Val) :
    loopE (matchVarNeg H (exactCfg sims) mv) st l = .ok st' ↔ (∀ w ∈ l, pyEq H w mv = false) ∧ st' = st := by
  refine loopE_check _ (fun w => pyEq H w mv = false) st l ?_ ?_ st'
  · intro a _ h; simp [matchVarNeg, h]
  · intro a _ h; exact ⟨st.bv, by simp [matchVarNeg, h, penalise_exact]⟩

theorem matchNegVal_loop (mv : Val) (st st' : MState) (l : List Val) :
    loopE (matchNegVal H (exactCfg sims) mv) st l = .ok st' ↔ (∀ w ∈ l, negValHit H w mv = false) ∧ st' = st := by
  refine loopE_check _ (fun w => negValHit H w mv = false) st l ?_ ?_ st'
  · intro a _ h; simp [matchNegVal, h]
  · intro a _ h; exact ⟨st.bv, by simp [matchNegVal, h, penalise_exact]⟩

theorem matchValue_ok (mv v : Val) (st st' : MState) :
    matchValue H (exactCfg sims) mv v st = .ok st' ↔
      (v.truthy = false ∨ pyEq H v .none = true ∨ pyEq H v mv = true) ∧ st' = st := by
  unfold matchValue
  cases h1 : v.truthy <;> cases h2 : pyEq H v .none <;> cases h3 : pyEq H v mv <;>
    simp [penalise_exact, eq_comm]

/-- The bindings after a positive variable has been processed successfully. -/
def afterVar (bv : BV) (vr : Option String) (mv : Val) : BV :=
  match vr with
  | Option.none => bv
  | some var => if var = "" then bv else match bv.get var with
    | some _ => bv
    | Option.none => bv.bind var mv

theorem matchVar_ok (mv : Val) (vr : Option String) (st st' : MState) :
    matchVar H (exactCfg sims) mv vr st = .ok st' ↔
      (∀ x, vr = some x → x ≠ "" → (∀ w ∈ st.bv.negGet x, pyEq H w mv = false) ∧
        (∀ b, st.bv.get x = some b → pyEq H b mv = true)) ∧
      st' = ⟨afterVar st.bv vr mv, st.sim⟩ := by
  cases vr with
  | none => simp [matchVar, afterVar, @eq_comm _ st']
  | some var =>
    by_cases hv : var = ""
    · subst hv; simp [matchVar, afterVar, @eq_comm _ st']
    · simp only [matchVar, afterVar, hv, if_false, Option.some.injEq]
      rcases loopE_error_or (matchVarNeg H (exactCfg sims) mv) st (st.bv.negGet var) with ⟨s, hs⟩ | ⟨b, hb⟩
      · rw [hs]
        obtain ⟨h1, rfl⟩ := (matchVarNeg_loop H sims mv st s _).mp hs
        simp only [matchVarPos]
        cases hg : s.bv.get var with
        | none =>
          simp only [Except.ok.injEq]
          constructor
          · rintro rfl
            refine ⟨?_, rfl⟩
            rintro x rfl _
            exact ⟨h1, by simp [hg]⟩
          · rintro ⟨_, rfl⟩; rfl
        | some b =>
          simp only []
          cases hp : pyEq H b mv
          · simp only [Bool.false_eq_true, if_false, penalise_exact]
            constructor
            · intro h; cases h
            · rintro ⟨h, _⟩
              have := (h var rfl hv).2 b hg
              rw [hp] at this; cases this
          · simp only [if_true, Except.ok.injEq]
            constructor
            · rintro rfl
              refine ⟨?_, rfl⟩
              rintro x rfl _
              refine ⟨h1, ?_⟩
              intro b' hb'
              rw [hg] at hb'; cases hb'; exact hp
            · rintro ⟨_, rfl⟩; rfl
      · rw [hb]
        constructor
        · intro h; cases h
        · rintro ⟨h, _⟩
          have := (h var rfl hv).1
          have := (matchVarNeg_loop H sims mv st st (st.bv.negGet var)).mpr ⟨this, rfl⟩
          rw [hb] at this; cases this

/-- The bindings after the negated variables have been processed successfully. -/
def afterNeg (bv : BV) (l : List String) (mv : Val) : BV := l.foldl (fun bv x => bv.negAdd H x mv) bv

theorem matchNegVar_ok (mv : Val) (st st' : MState) (x : String) :
    matchNegVar H (exactCfg sims) mv st x = .ok st' ↔
      (∀ b, st.bv.get x = some b → pyEq H b mv = false) ∧ st' = ⟨st.bv.negAdd H x mv, st.sim⟩ := by
  simp only [matchNegVar]
  cases hg : st.bv.get x with
  | none => simp [@eq_comm _ st']
  | some b => cases hp : pyEq H b mv <;> simp [hp, penalise_exact, @eq_comm _ st']

theorem matchNegVar_loop (mv : Val) (st st' : MState) (l : List String) :
    loopE (matchNegVar H (exactCfg sims) mv) st l = .ok st' ↔
      (∀ x ∈ l, ∀ b, st.bv.get x = some b → pyEq H b mv = false) ∧ st' = ⟨afterNeg H st.bv l mv, st.sim⟩ := by
  induction l generalizing st with
  | nil => simp [loopE, afterNeg, @eq_comm _ st']
  | cons a r ih =>
    simp only [loopE]
    cases h : matchNegVar H (exactCfg sims) mv st a with
    | ok s =>
      obtain ⟨h1, rfl⟩ := (matchNegVar_ok H sims mv st s a).mp h
      simp only [ih, get_negAdd, afterNeg, List.foldl_cons, List.mem_cons, forall_eq_or_imp]
      constructor
      · rintro ⟨h2, h3⟩; exact ⟨⟨h1, h2⟩, h3⟩
      · rintro ⟨⟨_, h2⟩, h3⟩; exact ⟨h2, h3⟩
    | error b =>
      constructor
      · intro h'; cases h'
      · rintro ⟨h1, _⟩
        have := (matchNegVar_ok H sims mv st ⟨st.bv.negAdd H a mv, st.sim⟩ a).mpr ⟨h1 a (by simp), rfl⟩
        rw [h] at this; cases this

/-- The bindings after one slot. -/
def afterSlot (other : Chunk) (bv : BV) (x : String × Slot) : BV :=
  afterNeg H (afterVar bv (splitting x.2).vars (matchingVal other x.1)) (splitting x.2).negvars (matchingVal other x.1)

/-- The condition one slot imposes, given the bindings before it. -/
structure SlotOK (other : Chunk) (bv : BV) (x : String × Slot) : Prop where
  posNeg : ∀ y, (splitting x.2).vars = some y → y ≠ "" → ∀ w ∈ bv.negGet y, pyEq H w (matchingVal other x.1) = false
  posEq : ∀ y, (splitting x.2).vars = some y → y ≠ "" → ∀ b, bv.get y = some b → pyEq H b (matchingVal other x.1) = true
  neg : ∀ y ∈ (splitting x.2).negvars, ∀ b,
    (afterVar bv (splitting x.2).vars (matchingVal other x.1)).get y = some b → pyEq H b (matchingVal other x.1) = false
  val : (splitting x.2).values.truthy = false ∨ pyEq H (splitting x.2).values .none = true ∨
    pyEq H (splitting x.2).values (matchingVal other x.1) = true
  negval : ∀ w ∈ (splitting x.2).negvalues, negValHit H w (matchingVal other x.1) = false

theorem matchSlot_ok (other : Chunk) (st st' : MState) (x : String × Slot) :
    matchSlot H (exactCfg sims) other st x = .ok st' ↔
      SlotOK H other st.bv x ∧ st' = ⟨afterSlot H other st.bv x, st.sim⟩ := by
  simp only [matchSlot]
  constructor
  · intro h
    cases h1 : matchVar H (exactCfg sims) (matchingVal other x.1) (splitting x.2).vars st with
    | error b => rw [h1] at h; cases h
    | ok s1 =>
      rw [h1] at h
      simp only at h
      cases h2 : loopE (matchNegVar H (exactCfg sims) (matchingVal other x.1)) s1 (splitting x.2).negvars with
      | error b => rw [h2] at h; cases h
      | ok s2 =>
        rw [h2] at h
        simp only at h
        cases h3 : matchValue H (exactCfg sims) (matchingVal other x.1) (splitting x.2).values s2 with
        | error b => rw [h3] at h; cases h
        | ok s3 =>
          rw [h3] at h
          simp only at h
          obtain ⟨c1, rfl⟩ := (matchVar_ok ..).mp h1
          obtain ⟨c2, rfl⟩ := (matchNegVar_loop ..).mp h2
          obtain ⟨c3, rfl⟩ := (matchValue_ok ..).mp h3
          obtain ⟨c4, rfl⟩ := (matchNegVal_loop ..).mp h
          exact ⟨⟨fun y hy hy' => (c1 y hy hy').1, fun y hy hy' => (c1 y hy hy').2, c2, c3, c4⟩, rfl⟩
  · rintro ⟨c, rfl⟩
    rw [(matchVar_ok H sims _ _ st _).mpr ⟨fun y hy hy' => ⟨c.posNeg y hy hy', c.posEq y hy hy'⟩, rfl⟩]
    simp only
    rw [(matchNegVar_loop H sims _ _ _ _).mpr ⟨c.neg, rfl⟩]
    simp only
    rw [(matchValue_ok H sims _ _ _ _).mpr ⟨c.val, rfl⟩]
    simp only
    exact (matchNegVal_loop H sims _ _ _ _).mpr ⟨c.negval, rfl⟩

/-- Success of the loop over the slots. -/
def AllOK (other : Chunk) : BV → Slots → Prop
  | _, [] => True
  | bv, x :: r => SlotOK H other bv x ∧ AllOK other (afterSlot H other bv x) r

def afterSlots (other : Chunk) (bv : BV) (xs : Slots) : BV := xs.foldl (afterSlot H other) bv

theorem matchSlots_ok (other : Chunk) (xs : Slots) (st st' : MState) :
    matchSlots H (exactCfg sims) other st xs = .ok st' ↔
      AllOK H other st.bv xs ∧ st' = ⟨afterSlots H other st.bv xs, st.sim⟩ := by
  induction xs generalizing st with
  | nil => simp [matchSlots, loopE, AllOK, afterSlots, eq_comm]
  | cons x r ih =>
    simp only [matchSlots, loopE, AllOK, afterSlots, List.foldl_cons]
    cases h : matchSlot H (exactCfg sims) other st x with
    | ok s =>
      obtain ⟨h1, rfl⟩ := (matchSlot_ok H sims other st s x).mp h
      have := ih ⟨afterSlot H other st.bv x, st.sim⟩
      simp only [matchSlots, afterSlots] at this
      rw [this]
      simp [h1]
    | error b =>
      constructor
      · intro h'; cases h'
      · rintro ⟨⟨h1, _⟩, _⟩
        have := (matchSlot_ok H sims other st _ x).mpr ⟨h1, rfl⟩
        rw [h] at this; cases this

end Exact

theorem alook_mem {α : Type} {n : String} {a : α} {l : List (String × α)} (h : alook n l = some a) : (n, a) ∈ l := by
  induction l with
  | nil => simp [alook] at h
  | cons b r ih =>
    obtain ⟨m, b⟩ := b
    simp only [alook] at h
    split at h
    · next hm => simp only [Option.some.injEq] at h; subst h; subst hm; simp
    · exact List.mem_cons_of_mem _ (ih h)

theorem alook_none_iff {α : Type} {n : String} {l : List (String × α)} : alook n l = Option.none ↔ ∀ a, (n, a) ∉ l := by
  induction l with
  | nil => simp [alook]
  | cons b r ih =>
    obtain ⟨m, b⟩ := b
    simp only [alook]
    split
    · next hm => subst hm; simp only [reduceCtorEq, List.mem_cons, Prod.mk.injEq, true_and, false_iff, not_forall, not_not]; exact ⟨b, Or.inl rfl⟩
    · next hm => simp [ih, Ne.symm hm]

theorem alook_of_mem {α : Type} {n : String} {a : α} {l : List (String × α)} (hn : (l.map Prod.fst).Nodup)
    (h : (n, a) ∈ l) : alook n l = some a := by
  induction l with
  | nil => simp at h
  | cons b r ih =>
    obtain ⟨m, b⟩ := b
    simp only [List.map_cons, List.nodup_cons] at hn
    simp only [List.mem_cons, Prod.mk.injEq] at h
    simp only [alook]
    rcases h with ⟨rfl, rfl⟩ | h
    · simp
    · have : m ≠ n := by
        rintro rfl
        exact hn.1 (List.mem_map.mpr ⟨(m, a), h, rfl⟩)
      simp [this, ih hn.2 h]

/-- The specification's slot lookup is the model's, for chunks with distinct slot names. -/
theorem slotHas_iff {d : Chunk} (hd : Named d) (n : String) (w : Val) : SlotHas d n w ↔ w = matchingVal d n := by
  constructor
  · intro h
    cases h with
    | missing h => simp [matchingVal, alook_none_iff.mpr h]
    | empty h => simp [matchingVal, alook_of_mem hd h]
    | val h => simp [matchingVal, alook_of_mem hd h]
  · rintro rfl
    unfold matchingVal
    split
    · next h => exact .missing (alook_none_iff.mp h)
    · next h => exact .empty (alook_mem h)
    · next x h => exact .val (alook_mem h)

end Verif
