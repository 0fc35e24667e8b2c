import Verif.Model.Num
import Verif.Spec.Rounding
import Mathlib.Tactic.Linarith
import Mathlib.Tactic.NormNum
import Mathlib.Tactic.FieldSimp
import Mathlib.Tactic.Ring
import Mathlib.Algebra.Order.Round
/-! Helper lemmas about rounding. -/
namespace Verif
open Verif.Spec

/-- What `roundEven` computes. -/
theorem roundEven_spec (x : ℚ) : |x - roundEven x| ≤ 1 / 2 ∧ (|x - roundEven x| = 1 / 2 → Even (roundEven x)) := by
  have h0 := Int.floor_le x
  have h1 := Int.lt_floor_add_one x
  simp only [roundEven]
  split
  · next h =>
    have : |x - (⌊x⌋ : ℚ)| = x - ⌊x⌋ := abs_of_nonneg (by linarith)
    rw [this]; exact ⟨by linarith, fun h' => by linarith⟩
  · split
    · next h =>
      have : |x - ((⌊x⌋ + 1 : ℤ) : ℚ)| = 1 - (x - ⌊x⌋) := by
        rw [abs_of_nonpos (by push_cast; linarith)]; push_cast; ring
      rw [this]; exact ⟨by linarith, fun h' => by linarith⟩
    · next ha hb =>
      have he : x - ⌊x⌋ = 1 / 2 := le_antisymm (not_lt.mp hb) (not_lt.mp ha)
      split
      · next hc =>
        have : |x - (⌊x⌋ : ℚ)| = 1 / 2 := by rw [he]; norm_num
        exact ⟨this.le, fun _ => Int.even_iff.mpr hc⟩
      · next hc =>
        have : |x - ((⌊x⌋ + 1 : ℤ) : ℚ)| = 1 / 2 := by
          rw [abs_of_nonpos (by push_cast; linarith)]; push_cast; linarith
        refine ⟨this.le, fun _ => ?_⟩
        rw [Int.even_iff]; omega

theorem roundEven_unique {x : ℚ} {k : ℤ} (h : |x - k| ≤ 1 / 2) (he : |x - k| = 1 / 2 → Even k) : k = roundEven x := by
  obtain ⟨h1, h2⟩ := roundEven_spec x
  rw [abs_le] at h h1
  -- two integers within 1/2 of x differ by at most one
  have ha : (k : ℚ) - roundEven x ≤ 1 := by linarith [h.1, h.2, h1.1, h1.2]
  have hb : (roundEven x : ℚ) - k ≤ 1 := by linarith [h.1, h.2, h1.1, h1.2]
  have ha' : k - roundEven x ≤ 1 := by exact_mod_cast ha
  have hb' : roundEven x - k ≤ 1 := by exact_mod_cast hb
  rcases lt_trichotomy k (roundEven x) with hlt | heq | hgt
  · exfalso
    have hk : roundEven x = k + 1 := by omega
    have hq : (roundEven x : ℚ) = k + 1 := by exact_mod_cast hk
    have e1 : x - k = 1 / 2 := by linarith [h.1, h.2, h1.1, h1.2]
    have e2 : x - roundEven x = - (1 / 2) := by linarith
    have p1 := he (by rw [e1]; norm_num)
    have p2 := h2 (by rw [e2]; norm_num)
    rw [Int.even_iff] at p1 p2; omega
  · exact heq
  · exfalso
    have hk : k = roundEven x + 1 := by omega
    have hq : (k : ℚ) = roundEven x + 1 := by exact_mod_cast hk
    have e1 : x - roundEven x = 1 / 2 := by linarith [h.1, h.2, h1.1, h1.2]
    have e2 : x - k = - (1 / 2) := by linarith
    have p1 := he (by rw [e2]; norm_num)
    have p2 := h2 (by rw [e1]; norm_num)
    rw [Int.even_iff] at p1 p2; omega

theorem abs_scale (q : ℚ) (k : ℤ) : |q * 10000 - k| = |q - k / 10000| * 10000 := by
  have : q * 10000 - k = (q - k / 10000) * 10000 := by ring
  rw [this, abs_mul]; norm_num

theorem round4_isRounded (q : ℚ) : IsRounded q (round4 q) := by
  obtain ⟨h1, h2⟩ := roundEven_spec (q * 10000)
  rw [abs_scale] at h1 h2
  exact ⟨roundEven (q * 10000), rfl, by simp only [round4]; linarith, fun h => h2 (by simp only [round4] at h; rw [h]; norm_num)⟩

theorem isRounded_unique {q r : ℚ} (h : IsRounded q r) : r = round4 q := by
  obtain ⟨k, rfl, h1, h2⟩ := h
  have : k = roundEven (q * 10000) := by
    apply roundEven_unique
    · rw [abs_scale]; linarith
    · intro h; rw [abs_scale] at h; exact h2 (by linarith)
  rw [this]; rfl

theorem isRounded_iff {q r : ℚ} : IsRounded q r ↔ r = round4 q :=
  ⟨isRounded_unique, fun h => h ▸ round4_isRounded q⟩

/-- Multiples of 0.0001 are left alone. -/
theorem round4_of_int (k : ℤ) : round4 ((k : ℚ) / 10000) = k / 10000 :=
  (isRounded_unique ⟨k, rfl, by simp, fun h => by norm_num at h⟩).symm

theorem round4_idem (q : ℚ) : round4 (round4 q) = round4 q := round4_of_int _

theorem round4_close (q : ℚ) : |q - round4 q| ≤ 1 / 20000 := by
  obtain ⟨_, _, h, _⟩ := round4_isRounded q; exact h

theorem roundEven_mono {x y : ℚ} (h : x ≤ y) : roundEven x ≤ roundEven y := by
  obtain ⟨h1, h2⟩ := roundEven_spec x
  obtain ⟨h3, h4⟩ := roundEven_spec y
  by_contra hlt
  push Not at hlt
  have hq : (roundEven y : ℚ) + 1 ≤ roundEven x := by exact_mod_cast hlt
  rw [abs_le] at h1 h3
  have e1 : x - roundEven x = - (1 / 2) := by linarith [h1.1, h1.2, h3.1, h3.2]
  have e2 : y - roundEven y = 1 / 2 := by linarith [h1.1, h1.2, h3.1, h3.2]
  have e3 : (roundEven x : ℚ) = roundEven y + 1 := by linarith
  have e4 : roundEven x = roundEven y + 1 := by exact_mod_cast e3
  have p1 := h2 (by rw [e1]; norm_num)
  have p2 := h4 (by rw [e2]; norm_num)
  rw [Int.even_iff] at p1 p2; omega

theorem round4_mono {x y : ℚ} (h : x ≤ y) : round4 x ≤ round4 y := by
  have : roundEven (x * 10000) ≤ roundEven (y * 10000) := roundEven_mono (by linarith)
  have : (roundEven (x * 10000) : ℚ) ≤ roundEven (y * 10000) := by exact_mod_cast this
  simp only [round4]; linarith

theorem round4_zero : round4 0 = 0 := by simpa using round4_of_int 0

theorem round4_nonneg {q : ℚ} (h : 0 ≤ q) : 0 ≤ round4 q := by simpa [round4_zero] using round4_mono h

end Verif
