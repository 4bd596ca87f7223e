import Verif.Proofs.Nearest
import Verif.Model.Redistribute

/-
Rounding does not cross integers that are representable.
-/

namespace PMondriaan

/-- Rounding to `double` is monotone and keeps the integers up to 2^53, so it does not cross them. -/
structure KeepsInts (rnd : ℚ → ℚ) : Prop where
  ge : ∀ (n : Int) (x : ℚ), 0 ≤ n → n ≤ 2 ^ 53 → (n : ℚ) ≤ x → (n : ℚ) ≤ rnd x
  le : ∀ (n : Int) (x : ℚ), 0 ≤ n → n ≤ 2 ^ 53 → x ≤ (n : ℚ) → rnd x ≤ (n : ℚ)

theorem KeepsInts.of_monotone {rnd : ℚ → ℚ} (hm : Monotone rnd)
    (hi : ∀ n : Int, 0 ≤ n → n ≤ 2 ^ 53 → rnd n = n) : KeepsInts rnd :=
  ⟨fun n x h0 h1 h => by rw [← hi n h0 h1]; exact hm h, fun n x h0 h1 h => by rw [← hi n h0 h1]; exact hm h⟩

theorem KeepsInts.exact {rnd : ℚ → ℚ} (h : KeepsInts rnd) {n : Int} (h0 : 0 ≤ n) (h1 : n ≤ 2 ^ 53) :
    rnd n = n := le_antisymm (h.le n n h0 h1 le_rfl) (h.ge n n h0 h1 le_rfl)

theorem le_round_of_int {m : Int} {x : ℚ} (h : (m : ℚ) ≤ x) : m ≤ round x := by
  rw [round_eq, Int.le_floor]
  linarith

theorem round_le_of_int {m : Int} {x : ℚ} (h : x ≤ (m : ℚ)) : round x ≤ m := by
  rw [round_eq]
  have : ⌊x + 1 / 2⌋ < m + 1 := by
    rw [Int.floor_lt]
    push_cast
    linarith
  omega

theorem nearest53_keepsInts : KeepsInts nearest53 := by
  have hpow : ∀ {e : Int}, e ≤ 52 → ∀ n : Int, ∃ m : Int, (m : ℚ) = n / 2 ^ (e - 52) := by
    intro e he n
    refine ⟨n * 2 ^ (52 - e).toNat, ?_⟩
    have h1 : ((52 - e).toNat : Int) = 52 - e := Int.toNat_of_nonneg (by omega)
    push_cast
    rw [← zpow_natCast, h1, div_eq_mul_inv, ← zpow_neg]
    congr 2
    omega
  constructor
  · intro n x h0 h1 hx
    have hnq : (0 : ℚ) ≤ n := by exact_mod_cast h0
    unfold nearest53
    by_cases hx0 : x = 0
    · rw [if_pos hx0]; linarith
    · rw [if_neg hx0]
      have hpos : 0 < x := lt_of_le_of_ne (le_trans hnq hx) (Ne.symm hx0)
      have habs : |x| = x := abs_of_pos hpos
      rw [habs]
      set e := Int.log 2 x with he
      have htp : (0 : ℚ) < 2 ^ (e - 52) := zpow_pos (by norm_num) _
      by_cases h52 : e ≤ 52
      · obtain ⟨m, hm⟩ := hpow h52 n
        have h2 : m ≤ round (x / 2 ^ (e - 52)) := by
          apply le_round_of_int
          rw [hm]
          exact div_le_div_of_nonneg_right hx htp.le
        have h3 : (m : ℚ) ≤ (round (x / 2 ^ (e - 52)) : ℚ) := by exact_mod_cast h2
        calc (n : ℚ) = m * 2 ^ (e - 52) := by rw [hm]; field_simp
          _ ≤ _ := mul_le_mul_of_nonneg_right h3 htp.le
      · have h2 : ((2 : ℕ) : ℚ) ^ e ≤ x := Int.zpow_log_le_self (by norm_num) hpos
        have h2 : (2 : ℚ) ^ e ≤ x := by exact_mod_cast h2
        have h3 : (2 : ℚ) ^ e = 2 ^ 52 * 2 ^ (e - 52) := by
          rw [← zpow_natCast, ← zpow_add₀ (by norm_num : (2 : ℚ) ≠ 0)]
          congr 1
          push_cast
          omega
        have h4 : (2 ^ 52 : Int) ≤ round (x / 2 ^ (e - 52)) := by
          apply le_round_of_int
          push_cast
          rw [le_div_iff₀ htp]
          have h3' := h3
          norm_num at h3'
          linarith
        have h5 : ((2 : ℚ) ^ 52) ≤ (round (x / 2 ^ (e - 52)) : ℚ) := by exact_mod_cast h4
        have h6 : (2 : ℚ) ^ 53 ≤ 2 ^ e := by
          rw [← zpow_natCast]
          exact zpow_le_zpow_right₀ (by norm_num) (by push_cast; omega)
        have h7 : (n : ℚ) ≤ 2 ^ 53 := by exact_mod_cast h1
        calc (n : ℚ) ≤ 2 ^ e := le_trans h7 h6
          _ = 2 ^ 52 * 2 ^ (e - 52) := h3
          _ ≤ _ := mul_le_mul_of_nonneg_right h5 htp.le
  · intro n x h0 h1 hx
    have hnq : (0 : ℚ) ≤ n := by exact_mod_cast h0
    unfold nearest53
    by_cases hx0 : x = 0
    · rw [if_pos hx0]; exact hnq
    · rw [if_neg hx0]
      have htp : (0 : ℚ) < 2 ^ (Int.log 2 |x| - 52) := zpow_pos (by norm_num) _
      by_cases hneg : x < 0
      · have h2 : round (x / 2 ^ (Int.log 2 |x| - 52)) ≤ 0 := by
          apply round_le_of_int
          push_cast
          exact div_nonpos_of_nonpos_of_nonneg hneg.le htp.le
        have h3 : (round (x / 2 ^ (Int.log 2 |x| - 52)) : ℚ) ≤ 0 := by exact_mod_cast h2
        exact le_trans (mul_nonpos_of_nonpos_of_nonneg h3 htp.le) hnq
      · have hpos : 0 < x := lt_of_le_of_ne (not_lt.1 hneg) (Ne.symm hx0)
        have habs : |x| = x := abs_of_pos hpos
        rw [habs] at htp ⊢
        set e := Int.log 2 x with he
        have h2 : ((2 : ℕ) : ℚ) ^ e ≤ x := Int.zpow_log_le_self (by norm_num) hpos
        have h2 : (2 : ℚ) ^ e ≤ x := by exact_mod_cast h2
        have h7 : (n : ℚ) ≤ 2 ^ 53 := by exact_mod_cast h1
        have he53 : e ≤ 53 := by
          by_contra hc
          have h6 : (2 : ℚ) ^ 54 ≤ 2 ^ e := by
            rw [← zpow_natCast]
            exact zpow_le_zpow_right₀ (by norm_num) (by push_cast; omega)
          have : (2 : ℚ) ^ 54 ≤ 2 ^ 53 := le_trans h6 (le_trans h2 (le_trans hx h7))
          norm_num at this
        have hm : ∃ m : Int, (m : ℚ) = n / 2 ^ (e - 52) := by
          by_cases h52 : e ≤ 52
          · exact hpow h52 n
          · have he' : e = 53 := by omega
            have hn53 : (n : ℚ) = 2 ^ 53 := by
              apply le_antisymm h7
              have : (2 : ℚ) ^ (53 : Int) ≤ n := by
                have := le_trans h2 hx
                rwa [he'] at this
              exact_mod_cast this
            refine ⟨2 ^ 52, ?_⟩
            rw [hn53, he']
            norm_num
        obtain ⟨m, hm⟩ := hm
        have h3 : round (x / 2 ^ (e - 52)) ≤ m := by
          apply round_le_of_int
          rw [hm]
          exact div_le_div_of_nonneg_right hx htp.le
        have h4 : (round (x / 2 ^ (e - 52)) : ℚ) ≤ m := by exact_mod_cast h3
        calc _ ≤ (m : ℚ) * 2 ^ (e - 52) := mul_le_mul_of_nonneg_right h4 htp.le
          _ = n := by rw [hm]; field_simp

/-- The maximum local weight is at least the quotient rounded up. -/
theorem newMaxLocal_ge {rnd : ℚ → ℚ} (hk : KeepsInts rnd) (hr : RoundsWithin (1 / 2 ^ 53) rnd) {w : Int}
    (h0 : 0 ≤ w) (h1 : w < 2 ^ 53) {q : Nat} (hq : 0 < q) (hq1 : q ≤ 2 ^ 53) {eta : ℚ} (heta : 0 ≤ eta) :
    w ≤ (q : Int) * newMaxLocal rnd w q eta ∧ 0 ≤ newMaxLocal rnd w q eta := by
  have hwq : (0 : ℚ) ≤ w := by exact_mod_cast h0
  have hqq : (0 : ℚ) < q := by exact_mod_cast hq
  have hq1' : (1 : ℚ) ≤ q := by exact_mod_cast hq
  have e1 : rnd (w : ℚ) = w := hk.exact h0 (by omega)
  have e2 : rnd (q : ℚ) = q := by
    have := hk.exact (n := (q : Int)) (by omega) (by exact_mod_cast hq1)
    exact_mod_cast this
  set x : ℚ := (w : ℚ) / q with hx
  set c : Int := ⌈rnd (rnd (w : ℚ) / rnd (q : ℚ))⌉ with hc
  have hcx : c = ⌈rnd x⌉ := by rw [hc, e1, e2]
  have hxn : 0 ≤ x := div_nonneg hwq hqq.le
  have hxw : x ≤ w := by
    rw [hx, div_le_iff₀ hqq]
    nlinarith
  -- the quotient
  have hwc : (w : Int) ≤ q * c := by
    by_contra hlt
    have hlt : (q : Int) * c + 1 ≤ w := by omega
    have hltq : (q : ℚ) * c + 1 ≤ w := by exact_mod_cast hlt
    have h3 : rnd x ≤ c := by rw [hcx]; exact Int.le_ceil _
    have h4 := hr.ge_of_nonneg hxn
    have h5 : (w : ℚ) = q * x := by rw [hx]; field_simp
    have h6 : (w : ℚ) < 2 ^ 53 := by exact_mod_cast h1
    have h7 : (q : ℚ) * ((1 - 1 / 2 ^ 53) * x) ≤ q * c :=
      mul_le_mul_of_nonneg_left (le_trans h4 h3) hqq.le
    have h8 : (q : ℚ) * ((1 - 1 / 2 ^ 53) * x) = w - 1 / 2 ^ 53 * w := by rw [h5]; ring
    have h9 : 1 / 2 ^ 53 * (w : ℚ) < 1 := by
      rw [one_div, inv_mul_lt_iff₀ (by positivity)]
      linarith
    linarith
  have hc0 : 0 ≤ c := by
    rw [hcx]
    exact Int.ceil_nonneg (hr.nonneg_of_nonneg hxn)
  have hcw : c ≤ w := by
    rw [hcx, Int.ceil_le]
    exact hk.le w x h0 (by omega) hxw
  have hone : 1 ≤ rnd (1 + eta) := by
    have := hk.ge 1 (1 + eta) (by norm_num) (by norm_num) (by push_cast; linarith)
    exact_mod_cast this
  have hcq : (0 : ℚ) ≤ c := by exact_mod_cast hc0
  have hfin : (c : ℚ) ≤ rnd ((c : ℚ) * rnd (1 + eta)) := by
    apply hk.ge c _ hc0 (by omega)
    nlinarith
  have hm : c ≤ newMaxLocal rnd w q eta := by
    unfold newMaxLocal
    rw [← hc]
    unfold truncQ
    rw [if_pos (le_trans hcq hfin)]
    exact Int.le_floor.2 hfin
  refine ⟨le_trans hwc ?_, le_trans hc0 hm⟩
  exact Int.mul_le_mul_of_nonneg_left hm (by omega)

end PMondriaan
