import Mathlib.Tactic.LinearCombination
import Verif.Proofs.KeepsInts

/-
Property C55: the number of processors for the two sides of a parallel split.
-/

namespace PMondriaan

/-- The value that is converted to `long`. -/
theorem pLow_arg {rnd : ℚ → ℚ} (hk : KeepsInts rnd) {w0 w1 : Int} (h0 : 0 ≤ w0) (h1 : 0 ≤ w1) (hW : 0 < w0 + w1)
    (hW' : w0 + w1 ≤ 2 ^ 53) {p : Nat} (hp : p ≤ 2 ^ 50) :
    pLow rnd w0 w1 p =
      truncQ (rnd (rnd (rnd ((w0 : ℚ) / ((w0 : ℚ) + w1)) * p) + 1 / 2)) ∧
    0 ≤ rnd ((w0 : ℚ) / ((w0 : ℚ) + w1)) ∧ rnd ((w0 : ℚ) / ((w0 : ℚ) + w1)) ≤ 1 := by
  have e1 : rnd (w0 : ℚ) = w0 := hk.exact h0 (by omega)
  have e2 : rnd ((w0 + w1 : Int) : ℚ) = (w0 : ℚ) + w1 := by
    have := hk.exact (n := w0 + w1) (by omega) hW'
    rw [this]; push_cast; ring
  have e3 : rnd (p : ℚ) = p := by
    have := hk.exact (n := (p : Int)) (by omega) (by omega)
    exact_mod_cast this
  have h0q : (0 : ℚ) ≤ w0 := by exact_mod_cast h0
  have h1q : (0 : ℚ) ≤ w1 := by exact_mod_cast h1
  have hWq : (0 : ℚ) < (w0 : ℚ) + w1 := by exact_mod_cast hW
  refine ⟨?_, ?_, ?_⟩
  · unfold pLow
    rw [e1, e2, e3]
  · have := hk.ge 0 ((w0 : ℚ) / ((w0 : ℚ) + w1)) (le_refl _) (by norm_num)
      (by push_cast; exact div_nonneg h0q hWq.le)
    exact_mod_cast this
  · have := hk.le 1 ((w0 : ℚ) / ((w0 : ℚ) + w1)) (by norm_num) (by norm_num)
      (by push_cast; rw [div_le_one hWq]; linarith)
    exact_mod_cast this

/-- C55: the number of processors for the low side is between 0 and `p`. -/
theorem C55_range {rnd : ℚ → ℚ} (hk : KeepsInts rnd) (hr : RoundsWithin (1 / 2 ^ 53) rnd) {w0 w1 : Int}
    (h0 : 0 ≤ w0) (h1 : 0 ≤ w1) (hW : 0 < w0 + w1) (hW' : w0 + w1 ≤ 2 ^ 53) {p : Nat} (hp : p ≤ 2 ^ 50) :
    0 ≤ pLow rnd w0 w1 p ∧ pLow rnd w0 w1 p ≤ p := by
  obtain ⟨e, hq0, hq1⟩ := pLow_arg hk h0 h1 hW hW' hp
  rw [e]
  set q := rnd ((w0 : ℚ) / ((w0 : ℚ) + w1)) with hq
  have hpq : (0 : ℚ) ≤ p := by exact_mod_cast Nat.zero_le p
  have hpq' : (p : ℚ) ≤ 2 ^ 50 := by exact_mod_cast hp
  have hx0 : 0 ≤ rnd (q * p) := by
    have := hk.ge 0 (q * p) (le_refl _) (by norm_num) (by push_cast; positivity)
    exact_mod_cast this
  have hx1 : rnd (q * p) ≤ p := by
    have := hk.le p (q * p) (by omega) (by omega) (by push_cast; nlinarith)
    exact_mod_cast this
  have hy0 : 0 ≤ rnd (rnd (q * p) + 1 / 2) := hr.nonneg_of_nonneg (by linarith)
  refine ⟨truncQ_nonneg hy0, truncQ_le (by omega) ?_⟩
  have hy1 := hr.le_of_le (x := rnd (q * p) + 1 / 2) (y := p + 1 / 2) (by linarith) (by linarith)
  refine lt_of_le_of_lt hy1 ?_
  have h8 : (p : ℚ) ≤ 1125899906842624 := le_trans hpq' (by norm_num)
  push_cast
  have e9 : (1 + 1 / 2 ^ 53 : ℚ) * (p + 1 / 2) = p + 1 / 2 + 1 / 9007199254740992 * p + 1 / 18014398509481984 := by
    ring
  rw [e9]
  linarith

/-- C55, partial: the low side gets a processor when its share of the weight is at least `1/(2p)` (up to rounding),
and the high side when its share is more than that. What is missing is that the weights can be more uneven, see
`C55_false`. -/
theorem C55_both_partial {rnd : ℚ → ℚ} (hk : KeepsInts rnd) (hr : RoundsWithin (1 / 2 ^ 53) rnd) {w0 w1 : Int}
    (h0 : 0 ≤ w0) (h1 : 0 ≤ w1) (hW : 0 < w0 + w1) (hW' : w0 + w1 ≤ 2 ^ 53) {p : Nat} (hp : p ≤ 2 ^ 50) :
    ((w0 : ℚ) + w1 ≤ (1 - 2 / 2 ^ 53) * (2 * p * w0) → 1 ≤ pLow rnd w0 w1 p) ∧
    (((w0 : ℚ) + w1) * (1 / 2 + 4 / 2 ^ 53 * (p + 1)) ≤ p * w1 → pLow rnd w0 w1 p ≤ p - 1) := by
  obtain ⟨e, hq0, hq1⟩ := pLow_arg hk h0 h1 hW hW' hp
  rw [e]
  set z : ℚ := (w0 : ℚ) / ((w0 : ℚ) + w1) with hz
  set q := rnd z with hq
  have hpq : (0 : ℚ) ≤ p := by exact_mod_cast Nat.zero_le p
  have hpq' : (p : ℚ) ≤ 2 ^ 50 := by exact_mod_cast hp
  have h0q : (0 : ℚ) ≤ w0 := by exact_mod_cast h0
  have h1q : (0 : ℚ) ≤ w1 := by exact_mod_cast h1
  have hWq : (0 : ℚ) < (w0 : ℚ) + w1 := by exact_mod_cast hW
  have hz0 : 0 ≤ z := div_nonneg h0q hWq.le
  have hzW : z * ((w0 : ℚ) + w1) = w0 := by rw [hz]; field_simp
  have hx0 : 0 ≤ rnd (q * p) := hr.nonneg_of_nonneg (by positivity)
  have hy0 : 0 ≤ rnd (rnd (q * p) + 1 / 2) := hr.nonneg_of_nonneg (by linarith)
  constructor
  · intro h
    have a1 := hr.ge_of_nonneg hz0
    have a2 := hr.ge_of_nonneg (x := q * p) (by positivity)
    have a3 : (1 - 1 / 2 ^ 53 : ℚ) * ((1 - 1 / 2 ^ 53) * z * p) ≤ rnd (q * p) := by
      refine le_trans ?_ a2
      apply mul_le_mul_of_nonneg_left _ (by norm_num)
      exact mul_le_mul_of_nonneg_right a1 hpq
    have a4 : (1 : ℚ) ≤ (1 - 2 / 2 ^ 53) * (2 * p * z) := by
      by_contra hc
      push Not at hc
      have : (1 - 2 / 2 ^ 53 : ℚ) * (2 * p * z) * ((w0 : ℚ) + w1) < 1 * ((w0 : ℚ) + w1) :=
        mul_lt_mul_of_pos_right hc hWq
      have e5 : (1 - 2 / 2 ^ 53 : ℚ) * (2 * p * z) * ((w0 : ℚ) + w1) = (1 - 2 / 2 ^ 53) * (2 * p * w0) := by
        linear_combination ((1 - 2 / 2 ^ 53) * 2 * (p : ℚ)) * hzW
      rw [e5] at this
      linarith
    have a5 : 1 / 2 ≤ rnd (q * p) := by
      have hpz : 0 ≤ (p : ℚ) * z := by positivity
      have e6 : (1 - 1 / 2 ^ 53 : ℚ) * ((1 - 1 / 2 ^ 53) * z * p) = (1 - 1 / 2 ^ 53) * (1 - 1 / 2 ^ 53) * (p * z) := by
        ring
      rw [e6] at a3
      have e7 : (1 - 2 / 2 ^ 53 : ℚ) * (2 * p * z) = 2 * ((1 - 2 / 2 ^ 53) * (p * z)) := by ring
      rw [e7] at a4
      have e8 : (1 - 2 / 2 ^ 53 : ℚ) * (p * z) ≤ (1 - 1 / 2 ^ 53) * (1 - 1 / 2 ^ 53) * (p * z) :=
        mul_le_mul_of_nonneg_right (by norm_num) hpz
      linarith
    have a6 : (1 : ℚ) ≤ rnd (rnd (q * p) + 1 / 2) := by
      have := hk.ge 1 (rnd (q * p) + 1 / 2) (by norm_num) (by norm_num) (by push_cast; linarith)
      exact_mod_cast this
    unfold truncQ
    rw [if_pos hy0]
    exact Int.le_floor.2 (by exact_mod_cast a6)
  · intro h
    have a1 := hr.le_of_le (le_refl z) hz0
    have a2 := hr.le_of_le (x := q * p) (y := (1 + 1 / 2 ^ 53) * z * p) (mul_le_mul_of_nonneg_right a1 hpq)
      (by positivity)
    have a3 := hr.le_of_le (x := rnd (q * p) + 1 / 2)
      (y := (1 + 1 / 2 ^ 53) * ((1 + 1 / 2 ^ 53) * z * p) + 1 / 2) (by linarith) (by positivity)
    have a4 : z * p + (1 / 2 + 4 / 2 ^ 53 * (p + 1)) ≤ p := by
      by_contra hc
      push Not at hc
      have := mul_lt_mul_of_pos_right hc hWq
      have e5 : (z * p + (1 / 2 + 4 / 2 ^ 53 * ((p : ℚ) + 1))) * ((w0 : ℚ) + w1) =
          p * w0 + ((w0 : ℚ) + w1) * (1 / 2 + 4 / 2 ^ 53 * (p + 1)) := by
        linear_combination (p : ℚ) * hzW
      rw [e5] at this
      linarith
    have hzp : 0 ≤ z * p := by positivity
    have hzp1 : z * p ≤ p := by
      have : 0 ≤ (4 : ℚ) / 2 ^ 53 * (p + 1) := by positivity
      linarith
    have a5 : rnd (rnd (q * p) + 1 / 2) < p := by
      refine lt_of_le_of_lt a3 ?_
      have e6 : (1 + 1 / 2 ^ 53 : ℚ) * ((1 + 1 / 2 ^ 53) * ((1 + 1 / 2 ^ 53) * z * p) + 1 / 2) =
        z * p + ((1 + 1 / 2 ^ 53) ^ 3 - 1) * (z * p) + (1 + 1 / 2 ^ 53) / 2 := by ring
      rw [e6]
      have e7 : ((1 + 1 / 2 ^ 53 : ℚ) ^ 3 - 1) * (z * p) ≤ ((1 + 1 / 2 ^ 53 : ℚ) ^ 3 - 1) * p :=
        mul_le_mul_of_nonneg_left hzp1 (by norm_num)
      have e8 : ((1 + 1 / 2 ^ 53 : ℚ) ^ 3 - 1) * p ≤ 7 / 2 / 2 ^ 53 * p :=
        mul_le_mul_of_nonneg_right (by norm_num) hpq
      have e9 : (4 : ℚ) / 2 ^ 53 * (p + 1) = 4 / 2 ^ 53 * p + 4 / 2 ^ 53 := by ring
      rw [e9] at a4
      have e10 : (7 / 2 : ℚ) / 2 ^ 53 * p ≤ 4 / 2 ^ 53 * p := mul_le_mul_of_nonneg_right (by norm_num) hpq
      have e11 : (1 + 1 / 2 ^ 53 : ℚ) / 2 < 1 / 2 + 4 / 2 ^ 53 := by norm_num
      linarith
    unfold truncQ
    rw [if_pos hy0]
    have : ⌊rnd (rnd (q * p) + 1 / 2)⌋ < (p : Int) := by
      rw [Int.floor_lt]
      exact_mod_cast a5
    omega

example : pLow nearest53 5 7 4 = 2 ∧ ((5 : ℚ) + 7 ≤ (1 - 2 / 2 ^ 53) * (2 * 4 * 5)) ∧
    (((5 : ℚ) + 7) * (1 / 2 + 4 / 2 ^ 53 * (4 + 1)) ≤ 4 * 7) := by
  refine ⟨by decide +kernel, by norm_num, by norm_num⟩

/-- C55 is false in general. With imbalance 1, four labels and total weight 4, weights 3 and 1 respect the bounds of
`compute_max_global_weight`; with two processors the high side gets no processor although it still has to be divided
into two parts. With five labels and total weight 16, weights 3 and 13 respect the bounds; the low side gets no
processor although it has to be divided into two parts. -/
theorem C55_false : maxWeight nearest53 1 4 4 = 2 ∧ computeMax nearest53 4 2 2 4 2 = .ok (3, 3) ∧
    pLow nearest53 3 1 2 = 2 ∧
    maxWeight nearest53 1 16 5 = 6 ∧ computeMax nearest53 5 2 3 16 6 = .ok (9, 13) ∧
    pLow nearest53 3 13 2 = 0 := by
  refine ⟨?_, ?_, ?_, ?_, ?_, ?_⟩ <;> decide +kernel

end PMondriaan
