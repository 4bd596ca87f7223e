import Mathlib.Data.Nat.Log
import Verif.Proofs.RecBalance

/-
How much room `compute_max_global_weight` leaves: both bounds from below and above, and the slack
of a job of the recursion.
-/

namespace PMondriaan

open Spec

variable {u : ℚ} {rnd : ℚ → ℚ}

/-! ### Bounds from both sides -/

/-- Rounding a number that is near `y`. -/
theorem RoundsWithin.near (h : RoundsWithin u rnd) {x y e : ℚ} (hxy : |x - y| ≤ e) :
    |rnd x - y| ≤ (1 + u) * e + u * |y| := by
  have h1 := h.err x
  have h0 := h.nonneg
  have h2 : |rnd x - y| ≤ |rnd x - x| + |x - y| := by
    have := abs_add_le (rnd x - x) (x - y)
    simpa using this
  have h3 : |x| ≤ |y| + e := by
    have := abs_add_le y (x - y)
    have h4 : y + (x - y) = x := by ring
    rw [h4] at this
    linarith
  have h4 : u * |x| ≤ u * (|y| + e) := mul_le_mul_of_nonneg_left h3 h0
  linarith

/-- A quotient of two rounded nonnegative numbers, from below. -/
theorem RoundsWithin.div_ge (h : RoundsWithin u rnd) {a b : ℚ} (ha : 0 ≤ a) (hb : 0 < b) :
    (1 - 4 * u) * (a / b) ≤ rnd (rnd a / rnd b) := by
  have h0 := h.nonneg
  have h3 := h.small
  have hrb := h.le_of_le (le_refl b) hb.le
  have hrbp := h.pos_of_pos hb
  have hra := h.ge_of_nonneg ha
  have hran := h.nonneg_of_nonneg ha
  have hq : 0 ≤ a / b := by positivity
  have h1u : (0 : ℚ) < 1 + u := by linarith
  have h1u' : (0 : ℚ) ≤ 1 - u := by linarith
  have hd : ((1 - u) / (1 + u)) * (a / b) ≤ rnd a / rnd b := by
    rw [div_mul_div_comm]
    have : 0 ≤ (1 - u) * a := by positivity
    gcongr
  have hc : 1 - 2 * u ≤ (1 - u) / (1 + u) := by
    rw [le_div_iff₀ h1u]
    nlinarith
  have hd2 : (1 - 2 * u) * (a / b) ≤ rnd a / rnd b := by
    refine le_trans ?_ hd
    gcongr
  have hn : 0 ≤ rnd a / rnd b := by positivity
  have h4 := h.ge_of_nonneg hn
  refine le_trans ?_ h4
  have h5 : (1 - u) * ((1 - 2 * u) * (a / b)) ≤ (1 - u) * (rnd a / rnd b) :=
    mul_le_mul_of_nonneg_left hd2 h1u'
  refine le_trans ?_ h5
  rw [← mul_assoc]
  gcongr
  nlinarith

theorem RoundsWithin.div_near (h : RoundsWithin u rnd) {a b : ℚ} (ha : 0 ≤ a) (hb : 0 < b) :
    |rnd (rnd a / rnd b) - a / b| ≤ 4 * u * (a / b) := by
  have h1 := h.div_le ha hb
  have h2 := h.div_ge ha hb
  rw [_root_.abs_le]
  constructor <;> linarith

theorem truncQ_gt (x : ℚ) : x - 1 < truncQ x := by
  unfold truncQ
  split
  · exact Int.sub_one_lt_floor x
  · have := Int.le_ceil x
    linarith

theorem truncQ_le_add {x y : ℚ} (h : x ≤ y) (hy : 0 ≤ y) : (truncQ x : ℚ) ≤ y := by
  unfold truncQ
  split
  · exact le_trans (Int.floor_le x) h
  · rename_i hx
    push Not at hx
    have : ⌈x⌉ ≤ 0 := by rw [Int.ceil_le]; push_cast; exact le_of_lt hx
    have : ((⌈x⌉ : Int) : ℚ) ≤ 0 := by exact_mod_cast this
    linarith

/-- The bound for a side with `ks` of `k_` labels: the share `w ks / k_` and, for each of the `ks`
labels, the part `1 / (log2 ks + 1)` of the slack `M - w / k_`. -/
theorem boundFor_near (h : RoundsWithin u rnd) {k_ ks : Nat} (hk : 0 < k_) {w M : Int} (hw : 0 < w)
    (hM : 0 ≤ M) (hwM : w ≤ M * k_) :
    (ks : ℚ) * (w / k_ + (M - w / k_) / ((Nat.log2 ks + 1 : Nat) : ℚ)) - 20 * u * (M * ks) - 1 <
        boundFor rnd k_ ks w M ∧
      (boundFor rnd k_ ks w M : ℚ) ≤
        (ks : ℚ) * (w / k_ + (M - w / k_) / ((Nat.log2 ks + 1 : Nat) : ℚ)) + 20 * u * (M * ks) := by
  have h0 := h.nonneg
  have h3 := h.small
  obtain ⟨s1, s2⟩ := h.sq
  have hwq : (0 : ℚ) < (w : ℚ) := by exact_mod_cast hw
  have hMq : (0 : ℚ) ≤ (M : ℚ) := by exact_mod_cast hM
  have hkq : (1 : ℚ) ≤ (k_ : ℚ) := by exact_mod_cast hk
  have hkq0 : (0 : ℚ) < (k_ : ℚ) := by linarith
  have hsq0 : (0 : ℚ) ≤ (ks : ℚ) := by positivity
  have hwMq : (w : ℚ) ≤ (M : ℚ) * k_ := by exact_mod_cast hwM
  obtain ⟨q, hq⟩ : ∃ q : ℚ, q = ((Nat.log2 ks + 1 : Nat) : ℚ) := ⟨_, rfl⟩
  have hq1 : 1 ≤ q := by rw [hq]; push_cast; linarith [Nat.cast_nonneg (α := ℚ) (Nat.log2 ks)]
  have hq0 : 0 < q := by linarith
  have hMk : (((M * k_ : Int) : ℚ)) = (M : ℚ) * k_ := by push_cast; ring
  obtain ⟨T, hT⟩ : ∃ T : ℚ, T = (M : ℚ) * k_ / w := ⟨_, rfl⟩
  have hT1 : 1 ≤ T := by rw [hT, le_div_iff₀ hwq]; linarith
  have huT : 0 ≤ u * T := by positivity
  have huuT : u * u * T ≤ u / 1000 * T := mul_le_mul_of_nonneg_right s1 (by linarith)
  -- the quotient
  obtain ⟨c, hc⟩ : ∃ c, c = rnd (rnd (((M * k_ : Int) : ℚ)) / rnd (w : ℚ)) := ⟨_, rfl⟩
  have cN : |c - T| ≤ 4 * u * T := by
    have := h.div_near (a := (((M * k_ : Int) : ℚ))) (by rw [hMk]; positivity) hwq
    rw [← hc] at this
    rwa [hT, ← hMk]
  -- the excess
  obtain ⟨e, he⟩ : ∃ e, e = rnd (c - 1) := ⟨_, rfl⟩
  have eN : |e - (T - 1)| ≤ 6 * u * T := by
    have h1 : |(c - 1) - (T - 1)| ≤ 4 * u * T := by
      rw [show (c - 1) - (T - 1) = c - T by ring]; exact cN
    have h2 := h.near h1
    rw [← he, abs_of_nonneg (by linarith : 0 ≤ T - 1)] at h2
    have h5 : (1 + u) * (4 * u * T) + u * (T - 1) = 5 * (u * T) + 4 * (u * u * T) - u := by ring
    rw [h5] at h2
    have h6 : u / 1000 * T = (u * T) / 1000 := by ring
    have h7 : 6 * u * T = 6 * (u * T) := by ring
    rw [h6] at huuT
    rw [h7]
    linarith
  -- divided by q
  obtain ⟨d, hd⟩ : ∃ d, d = rnd (e / q) := ⟨_, rfl⟩
  have hT1q : (T - 1) / q ≤ T - 1 := div_le_self (by linarith) hq1
  have hT1q0 : 0 ≤ (T - 1) / q := div_nonneg (by linarith) hq0.le
  have dN : |d - (T - 1) / q| ≤ 8 * u * T := by
    have h1 : |e / q - (T - 1) / q| ≤ 6 * u * T := by
      rw [← sub_div, abs_div, abs_of_pos hq0]
      refine le_trans (div_le_self (abs_nonneg _) hq1) eN
    have h2 := h.near h1
    rw [← hd, abs_of_nonneg hT1q0] at h2
    have h5 : u * ((T - 1) / q) ≤ u * T := mul_le_mul_of_nonneg_left (by linarith) h0
    have h6 : (1 + u) * (6 * u * T) = 6 * (u * T) + 6 * (u * u * T) := by ring
    have h7 : u / 1000 * T = (u * T) / 1000 := by ring
    have h8 : 8 * u * T = 8 * (u * T) := by ring
    rw [h7] at huuT
    rw [h8]
    linarith
  -- plus one
  obtain ⟨g, hg⟩ : ∃ g, g = rnd (1 + d) := ⟨_, rfl⟩
  obtain ⟨D, hD⟩ : ∃ D, D = 1 + (T - 1) / q := ⟨_, rfl⟩
  have hD1 : 1 ≤ D := by rw [hD]; linarith
  have hDT : D ≤ T := by rw [hD]; linarith
  have gN : |g - D| ≤ 10 * u * T := by
    have h1 : |(1 + d) - D| ≤ 8 * u * T := by
      rw [hD, show (1 + d) - (1 + (T - 1) / q) = d - (T - 1) / q by ring]; exact dN
    have h2 := h.near h1
    rw [← hg, abs_of_nonneg (by linarith : 0 ≤ D)] at h2
    have h5 : u * D ≤ u * T := mul_le_mul_of_nonneg_left hDT h0
    have h6 : (1 + u) * (8 * u * T) = 8 * (u * T) + 8 * (u * u * T) := by ring
    have h7 : u / 1000 * T = (u * T) / 1000 := by ring
    have h8 : 10 * u * T = 10 * (u * T) := by ring
    rw [h7] at huuT
    rw [h8]
    linarith
  -- the share
  obtain ⟨a, ha⟩ : ∃ a, a = rnd (rnd (w : ℚ) / rnd (k_ : ℚ)) := ⟨_, rfl⟩
  have aN : |a - w / k_| ≤ 4 * u * (w / k_) := by rw [ha]; exact h.div_near hwq.le hkq0
  obtain ⟨B, hB⟩ : ∃ B : ℚ, B = w / k_ * ks := ⟨_, rfl⟩
  have hB0 : 0 ≤ B := by rw [hB]; positivity
  obtain ⟨b, hb⟩ : ∃ b, b = rnd (a * rnd (ks : ℚ)) := ⟨_, rfl⟩
  have huB : 0 ≤ u * B := by positivity
  have huuB : u * u * B ≤ u / 1000 * B := mul_le_mul_of_nonneg_right s1 hB0
  have bN : |b - B| ≤ 7 * u * B := by
    have h1 : |a * rnd (ks : ℚ) - B| ≤ 11 / 2 * (u * B) := by
      have e1 : a * rnd (ks : ℚ) - B = (a - w / k_) * rnd (ks : ℚ) + w / k_ * (rnd (ks : ℚ) - ks) := by
        rw [hB]; ring
      rw [e1]
      refine le_trans (abs_add_le _ _) ?_
      rw [abs_mul, abs_mul]
      have k1 := h.abs_abs (ks : ℚ)
      have k2 := h.err (ks : ℚ)
      rw [abs_of_nonneg hsq0] at k1 k2
      rw [abs_of_nonneg (by positivity : (0 : ℚ) ≤ w / k_)]
      have k3 : |a - w / k_| * |rnd (ks : ℚ)| ≤ (4 * u * (w / k_)) * ((1 + u) * ks) :=
        mul_le_mul aN k1 (abs_nonneg _) (by positivity)
      have k4 : (w / k_ : ℚ) * |rnd (ks : ℚ) - ks| ≤ w / k_ * (u * ks) :=
        mul_le_mul_of_nonneg_left k2 (by positivity)
      have e2 : (4 * u * (w / k_ : ℚ)) * ((1 + u) * ks) = 4 * (u * B) + 4 * (u * u * B) := by
        rw [hB]; ring
      have e3 : (w / k_ : ℚ) * (u * ks) = u * B := by rw [hB]; ring
      have h7 : u / 1000 * B = (u * B) / 1000 := by ring
      rw [h7] at huuB
      linarith
    have h2 := h.near h1
    rw [← hb, abs_of_nonneg hB0] at h2
    have h6 : (1 + u) * (11 / 2 * (u * B)) = 11 / 2 * (u * B) + 11 / 2 * (u * u * B) := by ring
    have h7 : u / 1000 * B = (u * B) / 1000 := by ring
    have h8 : 7 * u * B = 7 * (u * B) := by ring
    rw [h7] at huuB
    rw [h8]
    linarith
  -- the product
  obtain ⟨v, hv⟩ : ∃ v, v = rnd (b * g) := ⟨_, rfl⟩
  have hBT : B * T = M * ks := by
    rw [hB, hT]; field_simp
  have hBD : B * D ≤ B * T := mul_le_mul_of_nonneg_left hDT hB0
  have hBD0 : 0 ≤ B * D := by positivity
  have huBT : 0 ≤ u * (B * T) := by positivity
  have huuBT : u * u * (B * T) ≤ (u * (B * T)) / 1000 := by
    have := mul_le_mul_of_nonneg_right s1 (by positivity : 0 ≤ B * T)
    linarith
  have vN : |v - B * D| ≤ 20 * (u * (B * T)) := by
    have h1 : |b * g - B * D| ≤ 18 * (u * (B * T)) := by
      have e1 : b * g - B * D = (b - B) * g + B * (g - D) := by ring
      rw [e1]
      refine le_trans (abs_add_le _ _) ?_
      rw [abs_mul, abs_mul, abs_of_nonneg hB0]
      have k1 : |g| ≤ T + 10 * u * T := by
        have := abs_add_le D (g - D)
        rw [show D + (g - D) = g by ring, abs_of_nonneg (by linarith : 0 ≤ D)] at this
        linarith
      have k2 : |b - B| * |g| ≤ (7 * u * B) * (T + 10 * u * T) :=
        mul_le_mul bN k1 (abs_nonneg _) (by positivity)
      have k3 : B * |g - D| ≤ B * (10 * u * T) := mul_le_mul_of_nonneg_left gN hB0
      have e2 : (7 * u * B) * (T + 10 * u * T) = 7 * (u * (B * T)) + 70 * (u * u * (B * T)) := by ring
      have e3 : B * (10 * u * T) = 10 * (u * (B * T)) := by ring
      linarith
    have h2 := h.near h1
    rw [← hv, abs_of_nonneg hBD0] at h2
    have h5 : u * (B * D) ≤ u * (B * T) := mul_le_mul_of_nonneg_left hBD h0
    have h6 : (1 + u) * (18 * (u * (B * T))) = 18 * (u * (B * T)) + 18 * (u * u * (B * T)) := by ring
    linarith
  rw [hBT] at vN
  have hBDX : B * D = (ks : ℚ) * (w / k_ + (M - w / k_) / q) := by
    rw [hB, hD, hT]; field_simp
  rw [hBDX] at vN
  obtain ⟨v1, v2⟩ := _root_.abs_le.1 vN
  have hval : boundFor rnd k_ ks w M = truncQ v := by
    unfold boundFor
    dsimp only
    rw [hv, hb, ha, hg, hd, he, hc, hq]
  rw [← hq, hval]
  have hX : 0 ≤ (ks : ℚ) * (w / k_ + (M - w / k_) / q) := by rw [← hBDX]; exact hBD0
  have huM : 0 ≤ u * (M * ks) := by positivity
  constructor
  · have := truncQ_gt v
    linarith
  · exact truncQ_le_add (by linarith) (by linarith)

/-! ### Logarithms -/

theorem clog_le_log2 {n : Nat} : Nat.clog 2 n ≤ Nat.log2 n + 1 := by
  rw [Nat.log2_eq_log_two]
  exact (Nat.clog_le_iff_le_pow (by decide)).2 (Nat.lt_pow_succ_log_self (by decide) n).le

theorem log2_succ_le {n : Nat} (h : 1 ≤ n) : Nat.log2 n + 1 ≤ n := by
  rw [Nat.log2_eq_log_two]
  exact Nat.log_lt_self 2 (by omega)

theorem log2_pos {n : Nat} (h : 2 ≤ n) : 1 ≤ Nat.log2 n := by
  rw [Nat.log2_eq_log_two]
  exact (Nat.log_pos_iff).2 ⟨h, by decide⟩

/-- Halving, rounded up, takes one from the logarithm rounded up. -/
theorem clog_half {k : Nat} (h : 2 ≤ k) : Nat.clog 2 k = Nat.clog 2 (k - k / 2) + 1 := by
  rw [Nat.clog_of_two_le (by decide) h]
  congr 2
  omega

theorem clog_pos' {k : Nat} (h : 2 ≤ k) : 1 ≤ Nat.clog 2 k := Nat.clog_pos (by decide) h

/-- The logarithm of the smaller half. -/
theorem clog_le_log2_low {k : Nat} (h : 3 ≤ k) : Nat.clog 2 (k - k / 2) ≤ Nat.log2 (k / 2) + 1 := by
  have h1 : 2 ^ (Nat.clog 2 (k - k / 2)).pred < k - k / 2 :=
    Nat.pow_pred_clog_lt_self (by decide) (by omega)
  have h2 : 2 ^ (Nat.clog 2 (k - k / 2)).pred ≤ k / 2 := by omega
  have h3 := Nat.le_log_of_pow_le (by decide : 1 < 2) h2
  rw [Nat.log2_eq_log_two]
  rw [Nat.pred_eq_sub_one] at h3
  omega

/-! ### The slack of a job -/

/-- The slack per label that a job with `2 ^ (b - 1) < k_ ≤ 2 ^ b` labels needs, for vertices of weight at
most `om` and bounds computed with an error of at most `η`. -/
def needed (om η : ℚ) (b : Nat) : ℚ :=
  if b ≤ 1 then om / 2 + η else ((b : ℚ) - 1) * (om + 2 * η * b)

theorem needed_mono {om η : ℚ} (ho : 0 ≤ om) (hη : 0 ≤ η) {a b : Nat} (h : a ≤ b) :
    needed om η a ≤ needed om η b := by
  unfold needed
  split
  · split
    · exact le_refl _
    · rename_i h2
      have hb : (2 : ℚ) ≤ b := by exact_mod_cast (by omega : 2 ≤ b)
      have h3 : (1 : ℚ) * (om + 2 * η * 2) ≤ ((b : ℚ) - 1) * (om + 2 * η * b) := by
        have hb1 : (1 : ℚ) ≤ (b : ℚ) - 1 := by linarith
        gcongr
      linarith
  · rename_i h1
    rw [if_neg (by omega)]
    have ha : (2 : ℚ) ≤ a := by exact_mod_cast (by omega : 2 ≤ a)
    have hab : (a : ℚ) ≤ b := by exact_mod_cast h
    have h0 : 0 ≤ (a : ℚ) - 1 := by linarith
    have h2 : 0 ≤ (b : ℚ) - 1 := by linarith
    gcongr

theorem needed_ge {om η : ℚ} (ho : 0 ≤ om) (hη : 0 ≤ η) (b : Nat) : om / 2 + η ≤ needed om η b := by
  have := needed_mono ho hη (Nat.zero_le b)
  simpa [needed] using this

/-- The slack of a job of weight `w` with `K` labels: enough for the vertices to fit, and so little that
the weight stays positive. -/
structure Margin (M : Int) (om η C : ℚ) (K : Nat) (w : Int) : Prop where
  room : needed om η (Nat.clog 2 K) ≤ M - w / K
  tight : (M - w / K) * (Nat.clog 2 K * (Nat.clog 2 K + 1) / 2) + η * (Nat.clog 2 K : ℚ) ^ 3 ≤ C

theorem Margin.pos {M : Int} {om η C : ℚ} {K : Nat} {w : Int} (h : Margin M om η C K w) (hK : 2 ≤ K)
    (ho : 0 ≤ om) (hη : 0 ≤ η) (hC : C < M) : 0 < w := by
  have h1 := h.tight
  have h2 := h.room
  have h3 := needed_ge ho hη (Nat.clog 2 K)
  have hb : (1 : ℚ) ≤ (Nat.clog 2 K : ℚ) := by exact_mod_cast clog_pos' hK
  have hs : 0 ≤ (M : ℚ) - w / K := by linarith
  have hF : (1 : ℚ) ≤ Nat.clog 2 K * (Nat.clog 2 K + 1) / 2 := by nlinarith
  have h4 : ((M : ℚ) - w / K) * 1 ≤ (M - w / K) * (Nat.clog 2 K * (Nat.clog 2 K + 1) / 2) :=
    mul_le_mul_of_nonneg_left hF hs
  have h5 : 0 ≤ η * (Nat.clog 2 K : ℚ) ^ 3 := by positivity
  have h6 : 0 < (w : ℚ) / K := by linarith
  have hK0 : (0 : ℚ) < K := by exact_mod_cast (by omega : 0 < K)
  have h7 : (0 : ℚ) < w := by
    rcases div_pos_iff.1 h6 with h | h
    · exact h.1
    · linarith [h.2]
  exact_mod_cast h7

/-- One side of a split keeps the slack it needs. -/
theorem Margin.side {M : Int} {om η C : ℚ} {K ks ko : Nat} {w ws : Int} (h : Margin M om η C K w)
    (ho : 0 ≤ om) (hη : 0 ≤ η) (hK : K = ks + ko) (hks : 2 ≤ ks) (hko : 1 ≤ ko)
    {b : Nat} (hb : Nat.clog 2 K = b + 1) (hsb : Nat.clog 2 ks ≤ b)
    (hrho : b * ko ≤ 2 * ks * (Nat.log2 ko + 1))
    (hw : (ws : ℚ) ≤ ks * (w / K + (M - w / K) / ((Nat.log2 ks + 1 : Nat) : ℚ)) + η)
    (hwo : ((w - ws : Int) : ℚ) ≤ ko * (w / K + (M - w / K) / ((Nat.log2 ko + 1 : Nat) : ℚ)) + η) :
    Margin M om η C ks ws := by
  obtain ⟨s, hs⟩ : ∃ s : ℚ, s = M - w / K := ⟨_, rfl⟩
  obtain ⟨l, hl⟩ : ∃ l : ℚ, l = w / K := ⟨_, rfl⟩
  obtain ⟨b', hb'⟩ : ∃ b', b' = Nat.clog 2 ks := ⟨_, rfl⟩
  have hb'1 : 1 ≤ b' := by rw [hb']; exact clog_pos' hks
  have hroom := h.room
  have htight := h.tight
  rw [hb, ← hs] at hroom htight
  rw [← hs, ← hl] at hw hwo
  have hks0 : (2 : ℚ) ≤ ks := by exact_mod_cast hks
  have hko0 : (1 : ℚ) ≤ ko := by exact_mod_cast hko
  have hK0 : (0 : ℚ) < K := by exact_mod_cast (by omega : 0 < K)
  have hs0 : 0 ≤ s := by
    have := needed_ge ho hη (b + 1)
    linarith
  have hwl : (w : ℚ) = l * (ks + ko) := by
    rw [hl, div_mul_eq_mul_div, eq_div_iff hK0.ne', hK]; push_cast; ring
  obtain ⟨q, hq⟩ : ∃ q : Nat, q = Nat.log2 ks + 1 := ⟨_, rfl⟩
  obtain ⟨qo, hqo⟩ : ∃ q : Nat, q = Nat.log2 ko + 1 := ⟨_, rfl⟩
  rw [← hq] at hw
  rw [← hqo] at hwo hrho
  have hq2 : 2 ≤ q := by rw [hq]; have := log2_pos hks; omega
  have hqb : b' ≤ q := by rw [hq, hb']; exact clog_le_log2
  have hqo1 : 1 ≤ qo := by omega
  have hqq : (2 : ℚ) ≤ q := by exact_mod_cast hq2
  have hqoq : (1 : ℚ) ≤ qo := by exact_mod_cast hqo1
  -- from below
  have hlo : s - s / q - η ≤ M - ws / ks := by
    have h1 : (ws : ℚ) / ks ≤ l + s / q + η / ks := by
      rw [div_le_iff₀ (by linarith)]
      have : (l + s / q + η / ks) * ks = ks * (l + s / q) + η := by field_simp
      rw [this]; exact hw
    have h2 : η / ks ≤ η := div_le_self hη (by linarith)
    have h3 : s = M - l := by rw [hs, hl]
    linarith
  -- from above
  have hbq : (1 : ℚ) ≤ b := by exact_mod_cast (by omega : 1 ≤ b)
  have hup : (M : ℚ) - ws / ks ≤ s * (1 + 2 / b) + η := by
    have h0 : ((w - ws : Int) : ℚ) = l * (ks + ko) - ws := by push_cast; rw [hwl]
    rw [h0] at hwo
    have h1 : l - ko * (s / qo) / ks - η / ks ≤ ws / ks := by
      rw [le_div_iff₀ (by linarith)]
      have : (l - ko * (s / qo) / ks - η / ks) * ks = l * ks - ko * (s / qo) - η := by field_simp
      rw [this]
      linarith
    have h2 : η / ks ≤ η := div_le_self hη (by linarith)
    have h3 : s = M - l := by rw [hs, hl]
    have h4 : (ko : ℚ) * (s / qo) / ks ≤ s * (2 / b) := by
      have h5 : (b : ℚ) * ko ≤ 2 * ks * qo := by exact_mod_cast hrho
      rw [mul_div_assoc', div_div, mul_div_assoc', div_le_div_iff₀ (by positivity) (by linarith)]
      have := mul_le_mul_of_nonneg_left h5 hs0
      nlinarith
    linarith
  have hsn : needed om η b' ≤ M - ws / ks := by
    have h1 : needed om η (b' + 1) ≤ s := le_trans (needed_mono ho hη (by omega)) hroom
    refine le_trans ?_ hlo
    by_cases hb1 : b' = 1
    · rw [hb1] at h1 ⊢
      have e1 : needed om η 2 = om + 4 * η := by simp [needed]; ring
      have e2 : needed om η 1 = om / 2 + η := by simp [needed]
      rw [show (1 + 1 : Nat) = 2 from rfl, e1] at h1
      rw [e2]
      have h2 : s / q ≤ s / 2 := by gcongr
      linarith
    · have hb2 : (2 : ℚ) ≤ b' := by exact_mod_cast (by omega : 2 ≤ b')
      have e1 : needed om η (b' + 1) = (b' : ℚ) * (om + 2 * η * (b' + 1)) := by
        unfold needed
        rw [if_neg (by omega)]; push_cast; ring
      have e2 : needed om η b' = ((b' : ℚ) - 1) * (om + 2 * η * b') := by
        unfold needed
        rw [if_neg (by omega)]
      rw [e1] at h1
      rw [e2]
      have h2 : s / q ≤ s / b' := by
        have : (b' : ℚ) ≤ q := by exact_mod_cast hqb
        gcongr
      have h3 : (b' : ℚ) * (om + 2 * η * (b' + 1)) * (1 - 1 / b') ≤ s * (1 - 1 / b') := by
        refine mul_le_mul_of_nonneg_right h1 ?_
        have : (1 : ℚ) / b' ≤ 1 := by rw [div_le_one (by linarith)]; linarith
        linarith
      have h4 : (b' : ℚ) * (om + 2 * η * (b' + 1)) * (1 - 1 / b') =
          ((b' : ℚ) - 1) * (om + 2 * η * b') + 2 * η * (b' - 1) := by
        field_simp; ring
      have h5 : s * (1 - 1 / b') = s - s / b' := by ring
      have h6 : η ≤ 2 * η * (b' - 1) := by nlinarith
      linarith
  refine ⟨by rw [← hb']; exact hsn, ?_⟩
  rw [← hb']
  have hs'0 : 0 ≤ (M : ℚ) - ws / ks := by
    have := needed_ge ho hη b'
    linarith
  have hbb : (b' : ℚ) ≤ b := by rw [hb']; exact_mod_cast hsb
  have hb'q : (1 : ℚ) ≤ b' := by exact_mod_cast hb'1
  refine le_trans ?_ htight
  have hF : (b' : ℚ) * (b' + 1) / 2 ≤ (b : ℚ) * (b + 1) / 2 := by gcongr
  have h1 : ((M : ℚ) - ws / ks) * ((b' : ℚ) * (b' + 1) / 2) ≤
      (s * (1 + 2 / b) + η) * ((b : ℚ) * (b + 1) / 2) :=
    mul_le_mul hup hF (by positivity) (by positivity)
  have h2 : (s * (1 + 2 / b) + η) * ((b : ℚ) * (b + 1) / 2) =
      s * (((b : ℚ) + 1) * (b + 1 + 1) / 2) + η * ((b : ℚ) * (b + 1) / 2) := by
    field_simp; ring
  have h3 : η * (b' : ℚ) ^ 3 ≤ η * (b : ℚ) ^ 3 := by gcongr
  have h4 : (b : ℚ) * (b + 1) / 2 + b ^ 3 ≤ (b + 1) ^ 3 := by nlinarith
  have h5 := mul_le_mul_of_nonneg_left h4 hη
  push_cast
  linarith

end PMondriaan
