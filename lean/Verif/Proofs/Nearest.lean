import Mathlib.Data.Int.Log
import Mathlib.Algebra.Order.Round
import Verif.Proofs.Bounds

/-
Rounding to the nearest number with 53 significant bits satisfies what is assumed of `double`
arithmetic.
-/

namespace PMondriaan

/-- Rounding to the nearest rational with 53 significant bits (ties upwards, no underflow and no
overflow). -/
def nearest53 (x : ℚ) : ℚ :=
  if x = 0 then 0
  else (round (x / 2 ^ (Int.log 2 |x| - 52)) : ℚ) * 2 ^ (Int.log 2 |x| - 52)

/-- Any function that returns a number within half a unit in the 53rd place, however it breaks ties,
has relative error at most 2^-53. -/
theorem roundsWithin_of_half_ulp {rnd : ℚ → ℚ} (h0 : rnd 0 = 0)
    (h : ∀ x, x ≠ 0 → |rnd x - x| ≤ 2 ^ (Int.log 2 |x| - 52) / 2) : RoundsWithin (1 / 2 ^ 53) rnd := by
  refine ⟨by positivity, by norm_num, fun x => ?_⟩
  by_cases hx : x = 0
  · rw [hx, h0]; simp
  · refine le_trans (h x hx) ?_
    have hpos : 0 < |x| := abs_pos.2 hx
    have h1 : ((2 : ℕ) : ℚ) ^ Int.log 2 |x| ≤ |x| := Int.zpow_log_le_self (by norm_num) hpos
    have h2 : (2 : ℚ) ^ (Int.log 2 |x| - 52) / 2 = 1 / 2 ^ 53 * 2 ^ Int.log 2 |x| := by
      rw [zpow_sub₀ (by norm_num : (2 : ℚ) ≠ 0)]
      norm_num
      ring
    rw [h2]
    refine mul_le_mul_of_nonneg_left ?_ (by positivity)
    exact_mod_cast h1

theorem nearest53_rounds : RoundsWithin (1 / 2 ^ 53) nearest53 := by
  refine roundsWithin_of_half_ulp (by simp [nearest53]) fun x hx => ?_
  unfold nearest53
  rw [if_neg hx]
  set t : ℚ := 2 ^ (Int.log 2 |x| - 52) with ht
  have htp : 0 < t := zpow_pos (by norm_num) _
  have h1 := abs_sub_round (x / t)
  have h2 : (round (x / t) : ℚ) * t - x = -((x / t - round (x / t)) * t) := by
    field_simp
    ring
  rw [h2, abs_neg, abs_mul, abs_of_pos htp]
  calc |x / t - round (x / t)| * t ≤ 1 / 2 * t := mul_le_mul_of_nonneg_right h1 htp.le
    _ = t / 2 := by ring

end PMondriaan
