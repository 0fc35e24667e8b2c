import Verif.Lemmas.MatchEq
import Mathlib.Data.Countable.Basic
import Mathlib.Data.List.Sort
import Mathlib.Logic.Equiv.List
/-! Helper lemmas for the chunk properties. -/
namespace Verif
open Verif.Spec

instance : Countable Char := by
  have : Function.Injective Char.toNat := fun a b h => Char.toNat_inj.mp h
  exact this.countable

instance : Countable String := by
  have : Function.Injective String.toList := fun a b h => String.toList_inj.mp h
  exact this.countable

instance : Countable HKey := by
  have : Function.Injective (fun k : HKey => match k with
    | .values => 0 | .negvalues => 1 | .vars => 2 | .negvars => (3 : Nat)) := by
    intro a b h; cases a <;> cases b <;> simp_all
  exact this.countable

instance : Countable HItem := by
  have : Function.Injective (fun i : HItem => (i.slot, i.key, i.h)) := by
    intro a b h; cases a; cases b; simp_all
  exact this.countable

/-- There are collision-free hash functions. -/
theorem exists_collisionFree : ∃ H : PyHash, H.CollisionFree := by
  obtain ⟨f, hf⟩ := exists_injective_nat String
  obtain ⟨g, hg⟩ := exists_injective_nat (List HItem)
  refine ⟨⟨2, fun s => 3 * f s, fun t => 3 * g t + 1, id, fun _ => List.Perm.refl _⟩, ?_, ?_, ?_, ?_, ?_⟩
  · intro s t h; simp only at h; exact hf (by omega)
  · intro s t h; simp only at h; exact hg (by omega)
  · intro s t h; simp only at h; omega
  · intro s h; simp only at h; omega
  · intro s h; simp only at h; omega

/-- The items hashed for a plain chunk: a hash per non-empty slot. -/
theorem eq_iff_content {H : PyHash} (cf : H.CollisionFree) (bv : BV) (a b : Chunk) (ha : Plain a) (hb : Plain b) :
    a.eq H bv b = true ↔ chunkContent a = chunkContent b := by
  have h1 := hashItems_plain cf (fun n => (bv.get n).map (Val.view H)) a.slots ha
  have h2 := hashItems_plain cf (fun n => (BV.init.get n).map (Val.view H)) b.slots hb
  have h3 := val_hash_eq_iff cf a.val b.val ha hb
  have h4 : a.val.hash H = a.hash H bv := by
    simp only [Chunk.val, Val.hash, Val.view, View.hash, Chunk.hash]
    rw [h1, hashItems_plain cf _ a.slots ha]
  have h5 : b.val.hash H = b.hash H BV.init := by
    simp only [Chunk.val, Val.hash, Val.view, View.hash, Chunk.hash]
    rw [h2, hashItems_plain cf _ b.slots hb]
  simp only [Chunk.eq, beq_iff_eq, ← h4, ← h5, h3]
  simp [Chunk.val, content, chunkContent]

theorem keyEq_content {H : PyHash} (cf : H.CollisionFree) {a b : Val} (ha : PlainVal a) (hb : PlainVal b) :
    keyEq H a b = true ↔ content a = content b := by
  rw [keyEq_iff, val_hash_eq_iff cf a b ha hb, pyEq_iff cf a b ha hb]
  constructor
  · exact fun h => h.1
  · intro h
    refine ⟨h, ?_⟩
    revert h
    cases a <;> cases b <;> simp [content, SameVal]

theorem varFree_afterSlot (H : PyHash) {p d : Chunk} (hv : VarFree p) {x : String × Slot} (hx : x ∈ p.slots) (bv : BV) :
    afterSlot H d bv x = bv := by
  obtain ⟨n, s⟩ := x
  cases s with
  | empty => simp [afterSlot, splitting, afterVar, afterNeg]
  | vv x =>
    obtain ⟨h1, h2, _⟩ := hv n x hx
    simp [afterSlot, splitting, afterVar, afterNeg, h1, h2]

theorem varFree_allOK {H : PyHash} (cf : H.CollisionFree) {p d : Chunk} (hv : VarFree p) (hd : Plain d) (bv : BV) :
    ∀ xs : Slots, (∀ x ∈ xs, x ∈ p.slots) → (AllOK H d bv xs ↔ ∀ n x, (n, SlotOf.vv x) ∈ xs →
      Accepts x.values (matchingVal d n) ∧ ∀ v ∈ x.negvalues, ¬ Forbids v (matchingVal d n)) := by
  intro xs
  induction xs with
  | nil => intro _; simp [AllOK]
  | cons y r ih =>
    intro hsub
    obtain ⟨m, s⟩ := y
    have hmem := hsub (m, s) (by simp)
    simp only [AllOK]
    rw [varFree_afterSlot H hv hmem, ih (fun x hx => hsub x (by simp [hx]))]
    cases s with
    | empty =>
      have : SlotOK H d bv (m, SlotOf.empty) := by
        constructor <;> simp [splitting, Val.truthy]
      simp [this]
    | vv x =>
      obtain ⟨h1, h2, h3, h4⟩ := hv m x hmem
      have hmv := matchingVal_plain hd m
      have : SlotOK H d bv (m, SlotOf.vv x) ↔
          Accepts x.values (matchingVal d m) ∧ ∀ v ∈ x.negvalues, ¬ Forbids v (matchingVal d m) := by
        constructor
        · intro h
          refine ⟨(accepts_iff cf _ _ h3 hmv).mp h.val, fun v hv' hf => ?_⟩
          have := h.negval v hv'
          rw [(forbids_iff cf _ _ (h4 v hv') hmv).mpr hf] at this
          cases this
        · rintro ⟨ha, hf⟩
          refine ⟨by simp [splitting, h1], by simp [splitting, h1], by simp [splitting, h2],
            (accepts_iff cf _ _ h3 hmv).mpr ha, ?_⟩
          intro w hw
          by_contra hne
          exact hf w hw ((forbids_iff cf _ _ (h4 w hw) hmv).mp (by simpa using hne))
      rw [this]
      simp only [List.mem_cons, Prod.mk.injEq, SlotOf.vv.injEq]
      constructor
      · rintro ⟨ha, hr⟩ n y (⟨rfl, rfl⟩ | h)
        · exact ha
        · exact hr n y h
      · intro h
        exact ⟨h m x (Or.inl ⟨rfl, rfl⟩), fun n y hy => h n y (Or.inr hy)⟩

theorem varFree_afterSlots (H : PyHash) {p d : Chunk} (hv : VarFree p) (bv : BV) :
    ∀ xs : Slots, (∀ x ∈ xs, x ∈ p.slots) → afterSlots H d bv xs = bv := by
  intro xs
  induction xs with
  | nil => intro _; rfl
  | cons y r ih =>
    intro hsub
    simp only [afterSlots, List.foldl_cons]
    rw [varFree_afterSlot H hv (hsub y (by simp))]
    exact ih (fun x hx => hsub x (by simp [hx]))

/-- `le` in terms of the loop. -/
theorem le_true_iff (H : PyHash) (bv : BV) (p d : Chunk) (bv' : BV) :
    p.le H bv d = (true, bv') ↔ (p.eq H bv d = true ∧ bv' = bv) ∨
      (p.eq H bv d = false ∧ AllOK H d bv p.slots ∧ bv' = afterSlots H d bv p.slots) := by
  simp only [Chunk.le, Chunk.matchC]
  cases he : p.eq H bv d with
  | true => simp [@eq_comm _ bv']
  | false =>
    simp only [Bool.false_eq_true, ↓reduceIte, false_and, true_and, false_or]
    cases hm : matchSlots H (exactCfg []) d ⟨bv, 0⟩ p.slots with
    | ok st =>
      obtain ⟨h1, rfl⟩ := (matchSlots_ok H [] d p.slots _ _).mp hm
      simp [h1, @eq_comm _ bv']
    | error b =>
      simp only [Prod.mk.injEq, Bool.false_eq_true, false_and, false_iff]
      rintro ⟨h1, _⟩
      have := (matchSlots_ok H [] d p.slots ⟨bv, 0⟩ _).mpr ⟨h1, rfl⟩
      rw [hm] at this; cases this

theorem le_fst_iff (H : PyHash) (bv : BV) (p d : Chunk) :
    (p.le H bv d).1 = true ↔ p.eq H bv d = true ∨ AllOK H d bv p.slots := by
  have h : (p.le H bv d).1 = true ↔ p.le H bv d = (true, (p.le H bv d).2) := by
    constructor
    · intro h; exact Prod.ext h rfl
    · intro h; rw [h]
  constructor
  · intro h1
    rcases (le_true_iff ..).mp (h.mp h1) with ⟨h2, _⟩ | ⟨_, h2, _⟩
    · exact Or.inl h2
    · exact Or.inr h2
  · intro h1
    cases he : p.eq H bv d with
    | true => rw [(le_true_iff H bv p d bv).mpr (Or.inl ⟨he, rfl⟩)]
    | false =>
      rcases h1 with h1 | h1
      · rw [he] at h1; cases h1
      · rw [(le_true_iff H bv p d _).mpr (Or.inr ⟨he, h1, rfl⟩)]

end Verif
