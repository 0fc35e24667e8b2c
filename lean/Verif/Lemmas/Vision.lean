import Verif.Spec.Vision
import Verif.Lemmas.ChunkType
import Verif.Props.StringSplit
import Verif.Lemmas.Match
import Mathlib.Tactic.Linarith
import Mathlib.Tactic.Ring
/-! Lemmas on visual search. -/
namespace Verif
open Verif.Spec

theorem natDigits_plain (n : ℕ) : ∀ c ∈ (toString n).toList, c ≠ '=' ∧ c ≠ '!' := by
  intro c hc
  have : c.isDigit = true := by
    have h : c ∈ Nat.toDigits 10 n := by simpa [toString, Nat.repr] using hc
    exact Nat.isDigit_of_mem_toDigits (by omega) (by omega) h
  constructor <;> (rintro rfl; revert this; decide)

theorem intDigits_plain (n : ℤ) : ∀ c ∈ (toString n).toList, c ≠ '=' ∧ c ≠ '!' := by
  cases n with
  | ofNat m => exact natDigits_plain m
  | negSucc m =>
    intro c hc
    have e : toString (Int.negSucc m) = "-" ++ toString (m + 1) := rfl
    rw [e, String.toList_append, List.mem_append] at hc
    rcases hc with hc | hc
    · have : c = '-' := by simpa using hc
      subst this; decide
    · exact natDigits_plain _ c hc

theorem truncQ_intPart (q : ℚ) : IntPart q (truncQ q) := by
  unfold truncQ IntPart
  constructor
  · intro h
    rw [if_pos h]
    exact ⟨Int.floor_le q, Int.lt_floor_add_one q⟩
  · intro h
    rw [if_neg (by linarith)]
    exact ⟨by linarith [Int.ceil_lt_add_one q], Int.le_ceil q⟩

theorem intPart_unique {q : ℚ} {a b : ℤ} (ha : IntPart q a) (hb : IntPart q b) : a = b := by
  by_cases h : 0 ≤ q
  · obtain ⟨h1, h2⟩ := ha.1 h
    obtain ⟨h3, h4⟩ := hb.1 h
    have e1 : (a : ℚ) < b + 1 := by linarith
    have e2 : (b : ℚ) < a + 1 := by linarith
    have e1' : a < b + 1 := by exact_mod_cast e1
    have e2' : b < a + 1 := by exact_mod_cast e2
    omega
  · have h : q < 0 := by linarith
    obtain ⟨h1, h2⟩ := ha.2 h
    obtain ⟨h3, h4⟩ := hb.2 h
    have e1 : (a : ℚ) < b + 1 := by linarith
    have e2 : (b : ℚ) < a + 1 := by linarith
    have e1' : a < b + 1 := by exact_mod_cast e1
    have e2' : b < a + 1 := by exact_mod_cast e2
    omega

theorem mem_of_alook' {α : Type} {n : String} {a : α} {l : List (String × α)} (h : alook n l = some a) : (n, a) ∈ l := by
  induction l with
  | nil => simp [alook] at h
  | cons p l ih =>
    obtain ⟨m, b⟩ := p
    simp only [alook] at h
    split at h
    · rename_i e; subst e; simp at h; simp [h]
    · exact List.mem_cons_of_mem _ (ih h)

theorem alook_none_of {α : Type} {n : String} {l : List (String × α)} (h : ∀ p ∈ l, p.1 ≠ n) : alook n l = Option.none := by
  rw [alook_none_iff]
  intro a ha
  exact h _ ha rfl

theorem attrsEq_iff (a b : List (String × String)) : attrsEq a b = true ↔ ∀ n, alook n a = alook n b := by
  unfold attrsEq
  simp only [Bool.and_eq_true, List.all_eq_true, beq_iff_eq]
  constructor
  · rintro ⟨h1, h2⟩ n
    by_cases ha : ∃ p ∈ a, p.1 = n
    · obtain ⟨p, hp, rfl⟩ := ha; exact (h1 p hp).symm
    · by_cases hb : ∃ p ∈ b, p.1 = n
      · obtain ⟨p, hp, rfl⟩ := hb; exact h2 p hp
      · push Not at ha hb
        rw [alook_none_of ha, alook_none_of hb]
  · intro h
    exact ⟨fun p _ => (h p.1).symm, fun p _ => h p.1⟩

theorem same_iff (a b : Stim) : a.same b = true ↔ SameStim a b := by
  unfold Stim.same SameStim
  simp only [Bool.and_eq_true, beq_iff_eq, attrsEq_iff, and_assoc]

theorem inVisRecent_iff (recent : List Stim) (s : Stim) : inVisRecent recent s = true ↔ ∃ r ∈ recent, SameStim r s := by
  simp [inVisRecent, same_iff]

/-- A chunk with empty slots only is part of every chunk. -/
theorem le_of_empty (H : PyHash) (v search : Chunk) (h : ∀ p ∈ v.slots, p.2 = .empty) : (v.le H BV.init search).1 = true := by
  have key : ∀ (sl : Slots) (st : MState), (∀ p ∈ sl, p.2 = .empty) → matchSlots H (exactCfg []) search st sl = .ok st := by
    intro sl
    induction sl with
    | nil => intro st _; rfl
    | cons p r ih =>
      intro st hp
      have e : p.2 = .empty := hp p (by simp)
      have : matchSlot H (exactCfg []) search st p = .ok st := by
        simp [matchSlot, e, splitting, matchVar, loopE, matchValue, Val.truthy]
      simp only [matchSlots, loopE, this]
      exact ih st (fun q hq => hp q (by simp [hq]))
  unfold Chunk.le
  split
  · rfl
  · simp only [Chunk.matchC]
    rw [if_neg (by assumption)]
    rw [key _ _ h]

/-- The chunk made of an object without externally visible attributes. -/
theorem locChunk_plain {P : Py} {reg : Reg} (hr : RegOk P.toPyEnv reg) {s : Stim} (he : s.extVis.getD [] = []) {reg' : Reg} {v : Chunk}
    (h : locChunk P reg s false = (reg', .ok v)) : (∀ p ∈ v.slots, p.2 = .empty) ∧ RegOk P.toPyEnv reg' := by
  have hd : locChunk P reg s false = createChunk P.toPyEnv reg (s.locType.getD "_visuallocation") [] := by
    simp [locChunk, he]
  rw [hd] at h
  rcases createChunk_cases hr (typ := s.locType.getD "_visuallocation") (dict := []) (by simp) (vals := []) rfl with
    ⟨_, sl, r', e, hs, hl, _, _, hr'⟩ | ⟨_, er, e, _⟩
  · rw [e] at h
    cases h
    refine ⟨?_, hr'⟩
    rintro ⟨f, x⟩ hp
    have hnd : (sl.map Prod.fst).Nodup := by
      refine List.Pairwise.imp (fun {a b} hab e => ?_) hs
      subst e; exact absurd hab (String.lt_irrefl _)
    have := alook_of_mem hnd hp
    rw [hl f] at this
    simp only [List.map_nil, alook, Option.none_or] at this
    split at this
    · simpa using this.symm
    · cases this
  · rw [e] at h; cases h

/-- The chunk made of an object with its position. -/
theorem locChunk_pos {P : Py} {reg : Reg} (hr : RegOk P.toPyEnv reg) {s : Stim} (he : s.extVis.getD [] = []) {x y : ℚ}
    (hp : s.pos = some (x, y)) {reg' : Reg} {c : Chunk} (h : locChunk P reg s true = (reg', .ok c)) :
    LocatedAt c (truncQ x, truncQ y) ∧ RegOk P.toPyEnv reg' := by
  have e0 : locChunk P reg s true = createChunk P.toPyEnv reg (s.locType.getD "_visuallocation")
      [("screen_x", SlotArg.text (toString (truncQ x))), ("screen_y", SlotArg.text (toString (truncQ y)))] := by
    simp [locChunk, he, hp, aset]
  rw [e0] at h
  have hv : convertAll P.toPyEnv [("screen_x", SlotArg.text (toString (truncQ x))), ("screen_y", SlotArg.text (toString (truncQ y)))] =
      .ok [("screen_x", ⟨.str (toString (truncQ x)), Option.none, [], []⟩), ("screen_y", ⟨.str (toString (truncQ y)), Option.none, [], []⟩)] := by
    simp only [convertAll, SlotArg.convert]
    rw [Props.C11_plain _ _ (intDigits_plain _), Props.C11_plain _ _ (intDigits_plain _)]
  rcases createChunk_cases hr (typ := s.locType.getD "_visuallocation") (by simp) hv with
    ⟨_, sl, r', e, hs, hl, _, _, hr'⟩ | ⟨_, er, e, _⟩
  · rw [e] at h
    cases h
    refine ⟨⟨?_, ?_⟩, hr'⟩
    · have := hl "screen_x"
      simp [alook] at this
      exact mem_of_alook' this
    · have := hl "screen_y"
      simp [alook] at this
      exact mem_of_alook' this
  · rw [e] at h; cases h

end Verif
