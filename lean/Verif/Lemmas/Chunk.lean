import Verif.Model.Chunk
import Verif.Spec.Chunk
/-! Helper lemmas about hashing and equality. -/
namespace Verif
open Verif.Spec

theorem viewSlots_eq (H : PyHash) (sl : Slots) :
    viewSlots H sl = sl.map (fun p => (p.1, viewSlot H p.2)) := by
  induction sl with
  | nil => simp [viewSlots]
  | cons a r ih => obtain ⟨n, s⟩ := a; simp [viewSlots, ih]

theorem viewVals_eq (H : PyHash) (l : List Val) : viewVals H l = l.map (Val.view H) := by
  induction l with
  | nil => simp [viewVals]
  | cons a r ih => simp [viewVals, ih]

theorem order_singleton (H : PyHash) (i : Int) : H.order [i] = [i] :=
  List.perm_singleton.mp (H.order_perm [i])

theorem order_nil (H : PyHash) : H.order [] = [] := List.perm_nil.mp (H.order_perm [])

theorem order_eq_nil (H : PyHash) (l : List Int) : H.order l = [] ↔ l = [] := by
  constructor
  · intro h
    have := H.order_perm l
    rw [h] at this
    exact List.nil_perm.mp this
  · rintro rfl; exact order_nil H

/-- The slots that carry a value, as pairs. -/
def valuePairs : Slots → List (String × Val)
  | [] => []
  | (_, .empty) :: r => valuePairs r
  | (n, .vv x) :: r => if Noneish x.values then valuePairs r else (n, x.values) :: valuePairs r

theorem contentSlots_eq (sl : Slots) : contentSlots sl = (valuePairs sl).map (fun p => (p.1, content p.2)) := by
  induction sl with
  | nil => simp [contentSlots, valuePairs]
  | cons a r ih =>
    obtain ⟨n, s⟩ := a
    cases s with
    | empty => simp [contentSlots, contentSlot, valuePairs, ih]
    | vv x =>
      obtain ⟨v, vr, nv, nvr⟩ := x
      by_cases h : Noneish v <;> simp [contentSlots, contentSlot, valuePairs, ih, h]

theorem plainSlots_iff (sl : Slots) :
    PlainSlots sl ↔ ∀ n x, (n, SlotOf.vv x) ∈ sl →
      PlainVal x.values ∧ x.vars = Option.none ∧ x.negvalues = [] ∧ x.negvars = [] := by
  induction sl with
  | nil => simp [PlainSlots]
  | cons a r ih =>
    obtain ⟨n, s⟩ := a
    cases s with
    | empty => simp [PlainSlots, PlainSlot, ih]
    | vv x =>
      obtain ⟨v, vr, nv, nvr⟩ := x
      simp only [PlainSlots, PlainSlot, ih, List.mem_cons, Prod.mk.injEq, SlotOf.vv.injEq]
      constructor
      · rintro ⟨h1, h2⟩ n' x (⟨rfl, rfl⟩ | h)
        · exact h1
        · exact h2 _ _ h
      · intro h
        exact ⟨h n ⟨v, vr, nv, nvr⟩ (Or.inl ⟨rfl, rfl⟩), fun n' x hx => h n' x (Or.inr hx)⟩

theorem mem_valuePairs (sl : Slots) (n : String) (v : Val) :
    (n, v) ∈ valuePairs sl ↔ ∃ x, (n, SlotOf.vv x) ∈ sl ∧ x.values = v ∧ ¬ Noneish v := by
  induction sl with
  | nil => simp [valuePairs]
  | cons a r ih =>
    obtain ⟨m, s⟩ := a
    cases s with
    | empty => simp [valuePairs, ih]
    | vv x =>
      by_cases h : Noneish x.values
      · simp only [valuePairs, h, if_true, ih, List.mem_cons, Prod.mk.injEq, SlotOf.vv.injEq]
        constructor
        · rintro ⟨y, h1, h2, h3⟩; exact ⟨y, Or.inr h1, h2, h3⟩
        · rintro ⟨y, (⟨rfl, rfl⟩ | h1), rfl, h3⟩
          · exact absurd h h3
          · exact ⟨y, h1, rfl, h3⟩
      · simp only [valuePairs, h, if_false, ih, List.mem_cons, Prod.mk.injEq, SlotOf.vv.injEq]
        constructor
        · rintro (⟨rfl, rfl⟩ | ⟨y, h1, h2, h3⟩)
          · exact ⟨x, Or.inl ⟨rfl, rfl⟩, rfl, h⟩
          · exact ⟨y, Or.inr h1, h2, h3⟩
        · rintro ⟨y, (⟨rfl, rfl⟩ | h1), rfl, h3⟩
          · exact Or.inl ⟨rfl, rfl⟩
          · exact Or.inr ⟨y, h1, rfl, h3⟩

theorem sizeOf_slot_lt (sl : Slots) (n : String) (x : VarVal) (h : (n, SlotOf.vv x) ∈ sl) :
    sizeOf x.values < sizeOf sl := by
  have h1 := List.sizeOf_lt_of_mem h
  obtain ⟨v, vr, nv, nvr⟩ := x
  simp only [Prod.mk.sizeOf_spec, SlotOf.vv.sizeOf_spec, VVOf.mk.sizeOf_spec] at h1
  simp only
  omega

theorem plainVal_valuePairs {sl : Slots} (h : PlainSlots sl) {n : String} {v : Val} (hm : (n, v) ∈ valuePairs sl) :
    PlainVal v := by
  obtain ⟨x, h1, rfl, _⟩ := (mem_valuePairs sl n v).mp hm
  exact ((plainSlots_iff sl).mp h n x h1).1

/-- Equality with the empty value, for collision-free hashes. -/
theorem viewEq_empty {H : PyHash} (cf : H.CollisionFree) (v : Val) :
    View.eq H (v.view H) .empty = true ↔ Noneish v := by
  cases v with
  | none => simp [Val.view, View.eq, Noneish]
  | empty => simp [Val.view, View.eq, Noneish]
  | str s => simp [Val.view, View.eq, Noneish]
  | chunk t sl =>
    simp only [Val.view, View.eq, Noneish, View.hash, beq_iff_eq, iff_false]
    exact fun h => cf.none_tup _ h.symm

theorem setHashes_singleton (H : PyHash) (v : View) : View.setHashes H [v] = [v.hash H] := by
  simp [View.setHashes, order_singleton]

theorem setHashes_nil (H : PyHash) : View.setHashes H [] = [] := by simp [View.setHashes, order_nil]

/-- The hashed tuple of a plain list of slots. -/
theorem hashItems_plain {H : PyHash} (cf : H.CollisionFree) (lk : String → Option View) (sl : Slots) (h : PlainSlots sl) :
    hashItems H lk (viewSlots H sl) = (valuePairs sl).map (fun p => (⟨p.1, .values, p.2.hash H⟩ : HItem)) := by
  induction sl with
  | nil => simp [viewSlots, hashItems, valuePairs]
  | cons a r ih =>
    obtain ⟨n, s⟩ := a
    cases s with
    | empty =>
      simp only [viewSlots, viewSlot, hashItems, valuePairs]
      exact ih (by simp only [PlainSlots] at h; exact h.2)
    | vv x =>
      obtain ⟨v, vr, nv, nvr⟩ := x
      simp only [PlainSlots, PlainSlot] at h
      obtain ⟨⟨_, rfl, rfl, rfl⟩, h2⟩ := h
      have ih := ih h2
      have he := viewEq_empty cf v
      by_cases hn : Noneish v
      · have he' := he.mpr hn
        simp [viewSlots, viewSlot, hashItems, valuePairs, hn, VVOf.nonEmpty, he', optStrTruthy, viewVals, ih]
      · have he' : View.eq H (v.view H) .empty = false := by
          simpa [hn] using he
        simp [viewSlots, viewSlot, hashItems, valuePairs, hn, VVOf.nonEmpty, he', optStrTruthy, viewVals, ih, slotItems,
          slotChars, slotVals, slotNegs, unresolvedItems, View.setAdd, setHashes_singleton, setHashes_nil, Val.hash]

theorem map_eq_map_iff_of {α β γ δ : Type} (f : α → γ) (f' : β → γ) (g : α → δ) (g' : β → δ) :
    ∀ (l : List α) (l' : List β), (∀ a ∈ l, ∀ b ∈ l', f a = f' b ↔ g a = g' b) →
      (l.map f = l'.map f' ↔ l.map g = l'.map g')
  | [], [], _ => by simp
  | [], _ :: _, _ => by simp
  | _ :: _, [], _ => by simp
  | a :: l, b :: l', h => by
    simp only [List.map_cons, List.cons.injEq]
    rw [h a (by simp) b (by simp), map_eq_map_iff_of f f' g g' l l' (fun a ha b hb => h a (by simp [ha]) b (by simp [hb]))]

/-- For collision-free hashes, plain values have the same hash iff they have the same content. -/
theorem hash_eq_iff {H : PyHash} (cf : H.CollisionFree) :
    ∀ (k : Nat) (a b : Val), sizeOf a < k → PlainVal a → PlainVal b → (a.hash H = b.hash H ↔ content a = content b) := by
  intro k
  induction k with
  | zero => intro a b h; omega
  | succ k ih =>
    intro a b hk ha hb
    cases a with
    | none =>
      cases b with
      | none => simp [Val.hash, content]
      | empty => simp [Val.hash, content, Val.view, View.hash]
      | str s => simp [Val.hash, content, Val.view, View.hash, cf.none_str]
      | chunk t sl => simp [Val.hash, content, Val.view, View.hash, cf.none_tup]
    | empty =>
      cases b with
      | none => simp [Val.hash, content, Val.view, View.hash]
      | empty => simp [Val.hash, content]
      | str s => simp [Val.hash, content, Val.view, View.hash, cf.none_str]
      | chunk t sl => simp [Val.hash, content, Val.view, View.hash, cf.none_tup]
    | str s =>
      cases b with
      | none => simp [Val.hash, content, Val.view, View.hash, (cf.none_str s).symm]
      | empty => simp [Val.hash, content, Val.view, View.hash, (cf.none_str s).symm]
      | str t =>
        simp only [Val.hash, content, Val.view, View.hash, Content.str.injEq]
        exact ⟨cf.str_inj s t, fun h => by rw [h]⟩
      | chunk t sl => simp [Val.hash, content, Val.view, View.hash, cf.str_tup]
    | chunk t sl =>
      cases b with
      | none => simp [Val.hash, content, Val.view, View.hash, (cf.none_tup _).symm]
      | empty => simp [Val.hash, content, Val.view, View.hash, (cf.none_tup _).symm]
      | str t => simp [Val.hash, content, Val.view, View.hash, (cf.str_tup _ _).symm]
      | chunk t' sl' =>
        simp only [PlainVal] at ha hb
        simp only [Val.hash, content, Val.view, View.hash, Content.chunk.injEq]
        rw [hashItems_plain cf _ sl ha, hashItems_plain cf _ sl' hb, contentSlots_eq, contentSlots_eq]
        constructor
        · intro h
          refine (map_eq_map_iff_of _ _ _ _ _ _ ?_).mp (cf.tup_inj _ _ h)
          rintro ⟨n, v⟩ hv ⟨m, w⟩ hw
          obtain ⟨x, h1, rfl, _⟩ := (mem_valuePairs sl n v).mp hv
          have hs := sizeOf_slot_lt sl n x h1
          simp only [Val.chunk.sizeOf_spec] at hk
          have := ih x.values w (by omega) (plainVal_valuePairs ha hv) (plainVal_valuePairs hb hw)
          simp [this]
        · intro h
          congr 1
          refine (map_eq_map_iff_of _ _ _ _ _ _ ?_).mpr h
          rintro ⟨n, v⟩ hv ⟨m, w⟩ hw
          obtain ⟨x, h1, rfl, _⟩ := (mem_valuePairs sl n v).mp hv
          have hs := sizeOf_slot_lt sl n x h1
          simp only [Val.chunk.sizeOf_spec] at hk
          have := ih x.values w (by omega) (plainVal_valuePairs ha hv) (plainVal_valuePairs hb hw)
          simp [this]

theorem val_hash_eq_iff {H : PyHash} (cf : H.CollisionFree) (a b : Val) (ha : PlainVal a) (hb : PlainVal b) :
    a.hash H = b.hash H ↔ content a = content b :=
  hash_eq_iff cf (sizeOf a + 1) a b (by omega) ha hb

/-- For collision-free hashes, Python's == on plain values is `SameVal`. -/
theorem pyEq_iff {H : PyHash} (cf : H.CollisionFree) (a b : Val) (ha : PlainVal a) (hb : PlainVal b) :
    pyEq H a b = true ↔ SameVal a b := by
  have key := val_hash_eq_iff cf a b ha hb
  cases a <;> cases b <;>
    simp_all [pyEq, Val.view, View.eq, SameVal, Val.hash, View.hash, content, cf.none_tup, cf.none_str, cf.str_tup,
      (cf.none_tup _).symm, (cf.none_str _).symm, (cf.str_tup _ _).symm]

end Verif
