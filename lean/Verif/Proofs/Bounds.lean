import Mathlib.Tactic.Linarith
import Mathlib.Tactic.Positivity
import Mathlib.Tactic.FieldSimp
import Mathlib.Tactic.Ring
import Mathlib.Tactic.GCongr
import Mathlib.Algebra.Order.Field.Basic
import Verif.Model.RecBisect

/-
Lemmas about `compute_max_global_weight` under rounding.
-/

namespace PMondriaan

/-- What is assumed of rounding to `double`: the relative error is at most `u`. Exact arithmetic
(`u = 0`) and rounding to nearest (`u = 2^-53`, away from underflow and overflow) are instances. -/
structure RoundsWithin (u : ℚ) (rnd : ℚ → ℚ) : Prop where
  nonneg : 0 ≤ u
  small : u ≤ 1 / 1000
  err : ∀ x, |rnd x - x| ≤ u * |x|

theorem exact_rounding : RoundsWithin 0 id := ⟨le_refl _, by norm_num, by intro x; simp⟩

variable {u : ℚ} {rnd : ℚ → ℚ}

theorem RoundsWithin.le_of_le (h : RoundsWithin u rnd) {x y : ℚ} (hxy : x ≤ y) (hy : 0 ≤ y) :
    rnd x ≤ (1 + u) * y := by
  have h1 := h.err x
  have h0 := h.nonneg
  have h2 := (abs_le.1 h1).2
  by_cases hx : 0 ≤ x
  · rw [abs_of_nonneg hx] at h2
    nlinarith
  · push Not at hx
    rw [abs_of_neg hx] at h2
    have h3 := h.small
    nlinarith

theorem RoundsWithin.ge_of_nonneg (h : RoundsWithin u rnd) {x : ℚ} (hx : 0 ≤ x) :
    (1 - u) * x ≤ rnd x := by
  have h2 := (abs_le.1 (h.err x)).1
  rw [abs_of_nonneg hx] at h2
  linarith

theorem RoundsWithin.nonneg_of_nonneg (h : RoundsWithin u rnd) {x : ℚ} (hx : 0 ≤ x) : 0 ≤ rnd x := by
  have := h.ge_of_nonneg hx
  have h3 := h.small
  nlinarith

theorem RoundsWithin.pos_of_pos (h : RoundsWithin u rnd) {x : ℚ} (hx : 0 < x) : 0 < rnd x := by
  have := h.ge_of_nonneg (le_of_lt hx)
  have h3 := h.small
  nlinarith

theorem RoundsWithin.abs_le (h : RoundsWithin u rnd) (x : ℚ) : rnd x ≤ x + u * |x| := by
  have := (_root_.abs_le.1 (h.err x)).2
  linarith

theorem RoundsWithin.abs_ge (h : RoundsWithin u rnd) (x : ℚ) : x - u * |x| ≤ rnd x := by
  have := (_root_.abs_le.1 (h.err x)).1
  linarith

theorem RoundsWithin.abs_abs (h : RoundsWithin u rnd) (x : ℚ) : |rnd x| ≤ (1 + u) * |x| := by
  have h1 := h.err x
  have h2 := abs_sub_abs_le_abs_sub (rnd x) x
  linarith

/-- A quotient of two rounded nonnegative numbers. -/
theorem RoundsWithin.div_le (h : RoundsWithin u rnd) {a b : ℚ} (ha : 0 ≤ a) (hb : 0 < b) :
    rnd (rnd a / rnd b) ≤ (1 + 4 * u) * (a / b) := by
  have h0 := h.nonneg
  have h3 := h.small
  have hrb := h.ge_of_nonneg (le_of_lt hb)
  have hrbp := h.pos_of_pos hb
  have hra := h.le_of_le (le_refl a) ha
  have hran := h.nonneg_of_nonneg ha
  have hq : 0 ≤ a / b := by positivity
  have h1u : (0 : ℚ) < 1 - u := by linarith
  have hd : rnd a / rnd b ≤ ((1 + u) / (1 - u)) * (a / b) := by
    rw [div_mul_div_comm]
    have : 0 < (1 - u) * b := by positivity
    gcongr
  have hc : (1 + u) / (1 - u) ≤ 1 + 5 / 2 * u := by
    rw [div_le_iff₀ h1u]
    nlinarith
  have hd2 : rnd a / rnd b ≤ (1 + 5 / 2 * u) * (a / b) := by
    refine le_trans hd ?_
    gcongr
  have := h.le_of_le hd2 (by positivity)
  refine le_trans this ?_
  rw [← mul_assoc]
  gcongr
  nlinarith

theorem RoundsWithin.div_nonneg (h : RoundsWithin u rnd) {a b : ℚ} (ha : 0 ≤ a) (hb : 0 < b) :
    0 ≤ rnd (rnd a / rnd b) :=
  h.nonneg_of_nonneg (_root_.div_nonneg (h.nonneg_of_nonneg ha) (le_of_lt (h.pos_of_pos hb)))

theorem RoundsWithin.sq (h : RoundsWithin u rnd) : u * u ≤ u / 1000 ∧ 0 ≤ u * u := by
  have h0 := h.nonneg
  have h3 := h.small
  constructor <;> nlinarith

theorem RoundsWithin.cube (h : RoundsWithin u rnd) : u * u * u ≤ u / 1000000 ∧ 0 ≤ u * u * u := by
  have h0 := h.nonneg
  have h3 := h.small
  obtain ⟨h1, h2⟩ := h.sq
  constructor <;> nlinarith

theorem RoundsWithin.poly1 (h : RoundsWithin u rnd) :
    (1 + 5 / 2 * u) * (1 + 4 * u) ≤ 1 + 8 * u ∧ (1 + u) * (1 + 8 * u) ≤ 1 + 10 * u ∧
    (1 + u) * ((1 + 4 * u) * (1 + u)) ≤ 1 + 7 * u ∧ (1 + 7 * u) * (1 + 10 * u) ≤ 1 + 18 * u ∧
    (1 + 7 * u) * 4 * u ≤ 5 * u ∧ (1 + u) * (1 + 18 * u) ≤ 1 + 20 * u ∧
    (1 + u) * (5 * u) ≤ 6 * u := by
  have h0 := h.nonneg
  obtain ⟨s1, s2⟩ := h.sq
  obtain ⟨c1, c2⟩ := h.cube
  refine ⟨?_, ?_, ?_, ?_, ?_, ?_, ?_⟩
  · have : (1 + 5 / 2 * u) * (1 + 4 * u) = 1 + 13 / 2 * u + 10 * (u * u) := by ring
    linarith
  · have : (1 + u) * (1 + 8 * u) = 1 + 9 * u + 8 * (u * u) := by ring
    linarith
  · have : (1 + u) * ((1 + 4 * u) * (1 + u)) = 1 + 6 * u + 9 * (u * u) + 4 * (u * u * u) := by ring
    linarith
  · have : (1 + 7 * u) * (1 + 10 * u) = 1 + 17 * u + 70 * (u * u) := by ring
    linarith
  · have : (1 + 7 * u) * 4 * u = 4 * u + 28 * (u * u) := by ring
    linarith
  · have : (1 + u) * (1 + 18 * u) = 1 + 19 * u + 18 * (u * u) := by ring
    linarith
  · have : (1 + u) * (5 * u) = 5 * u + 5 * (u * u) := by ring
    linarith

theorem truncQ_le {x : ℚ} {M : Int} (hM : 0 ≤ M) (h : x < M + 1) : truncQ x ≤ M := by
  unfold truncQ
  split
  · have : ⌊x⌋ < M + 1 := by rw [Int.floor_lt]; push_cast; exact h
    omega
  · rename_i hx
    push Not at hx
    have : ⌈x⌉ ≤ 0 := by rw [Int.ceil_le]; push_cast; exact le_of_lt hx
    omega

theorem truncQ_nonneg {x : ℚ} (h : 0 ≤ x) : 0 ≤ truncQ x := by
  unfold truncQ
  rw [if_pos h]
  exact Int.floor_nonneg.2 h

theorem truncQ_le_self {x : ℚ} (h : 0 ≤ x) : (truncQ x : ℚ) ≤ x := by
  unfold truncQ
  rw [if_pos h]
  exact Int.floor_le x

/-- The bound for a side with one label does not exceed `maxweight`. -/
theorem boundFor_leaf (h : RoundsWithin u rnd) {k_ : Nat} (hk : 0 < k_) {w M : Int} (hw : 0 < w)
    (hM : 0 ≤ M) (hsmall : 40 * u * ((M : ℚ) + w) < 1) : boundFor rnd k_ 1 w M ≤ M := by
  have h0 := h.nonneg
  have h3 := h.small
  obtain ⟨p1, p2, p3, p4, p5, p6, p7⟩ := h.poly1
  have hwq : (0 : ℚ) < (w : ℚ) := by exact_mod_cast hw
  have hMq : (0 : ℚ) ≤ (M : ℚ) := by exact_mod_cast hM
  have hkq : (1 : ℚ) ≤ (k_ : ℚ) := by exact_mod_cast hk
  have hkq0 : (0 : ℚ) < (k_ : ℚ) := by linarith
  unfold boundFor
  simp only [show Nat.log2 1 + 1 = 1 from by decide, Nat.cast_one, div_one]
  apply truncQ_le hM
  -- the quotient
  set c := rnd (rnd (((M * k_ : Int) : ℚ)) / rnd (w : ℚ)) with hc
  have hMk : (((M * k_ : Int) : ℚ)) = (M : ℚ) * k_ := by push_cast; ring
  have hMkn : (0 : ℚ) ≤ (((M * k_ : Int) : ℚ)) := by rw [hMk]; positivity
  set T : ℚ := (M : ℚ) * k_ / w with hT
  have hTn : 0 ≤ T := by positivity
  have hcle : c ≤ (1 + 4 * u) * T := by
    have := h.div_le hMkn hwq
    rw [← hc] at this
    refine le_trans this (le_of_eq ?_)
    rw [hMk]
  have hcn : 0 ≤ c := h.div_nonneg hMkn hwq
  -- the excess
  set e := rnd (c - 1) with he
  have habs : |c - 1| ≤ c + 1 := by rw [_root_.abs_le]; constructor <;> linarith
  have hele : e ≤ c - 1 + u * (c + 1) := by
    have := h.abs_le (c - 1)
    nlinarith
  have heabs : |e| ≤ (1 + u) * (c + 1) := by
    have := h.abs_abs (c - 1)
    nlinarith
  set dl := rnd e with hdl
  have hdle : 1 + dl ≤ c + 5 / 2 * u * (c + 1) := by
    have := h.abs_le e
    have h5 : u * |e| ≤ u * ((1 + u) * (c + 1)) := by gcongr
    have h6 : u * u * (c + 1) ≤ u / 1000 * (c + 1) :=
      mul_le_mul_of_nonneg_right h.sq.1 (by linarith)
    have h7 : u * ((1 + u) * (c + 1)) = u * (c + 1) + u * u * (c + 1) := by ring
    have h8 : 0 ≤ u * (c + 1) := by positivity
    linarith
  have hcu : c + 5 / 2 * u * (c + 1) ≤ (1 + 8 * u) * T + 3 * u := by
    have h5 : (1 + 5 / 2 * u) * c ≤ (1 + 5 / 2 * u) * ((1 + 4 * u) * T) := by gcongr
    have h7 : (1 + 5 / 2 * u) * (1 + 4 * u) * T ≤ (1 + 8 * u) * T :=
      mul_le_mul_of_nonneg_right p1 hTn
    have h8 : c + 5 / 2 * u * (c + 1) = (1 + 5 / 2 * u) * c + 5 / 2 * u := by ring
    have h9 : (1 + 5 / 2 * u) * ((1 + 4 * u) * T) = (1 + 5 / 2 * u) * (1 + 4 * u) * T := by ring
    linarith
  have hrd : rnd (1 + dl) ≤ (1 + 10 * u) * T + 4 * u := by
    have h5 := h.le_of_le (le_trans hdle hcu) (by positivity)
    refine le_trans h5 ?_
    have h7 : (1 + u) * (1 + 8 * u) * T ≤ (1 + 10 * u) * T := mul_le_mul_of_nonneg_right p2 hTn
    have h8 : (1 + u) * ((1 + 8 * u) * T + 3 * u) =
        (1 + u) * (1 + 8 * u) * T + 3 * u + 3 * (u * u) := by ring
    have h9 := h.sq.1
    linarith
  -- the weight per label
  set g := rnd (rnd (rnd (w : ℚ) / rnd (k_ : ℚ)) * rnd 1) with hg
  have hq1 := h.div_le (le_of_lt hwq) hkq0
  have hq1n := h.div_nonneg (le_of_lt hwq) hkq0
  have hone : rnd 1 ≤ 1 + u := by have := h.le_of_le (le_refl (1 : ℚ)) (by norm_num); linarith
  have honen : 0 ≤ rnd 1 := h.nonneg_of_nonneg (by norm_num)
  have hgn : 0 ≤ g := h.nonneg_of_nonneg (by positivity)
  have hS : (0 : ℚ) ≤ w / k_ := by positivity
  have hgle : g ≤ (1 + 7 * u) * (w / k_) := by
    have h5 : rnd (rnd (w : ℚ) / rnd (k_ : ℚ)) * rnd 1 ≤ ((1 + 4 * u) * (w / k_)) * (1 + u) := by
      gcongr
    refine le_trans (h.le_of_le h5 (by positivity)) ?_
    calc (1 + u) * ((1 + 4 * u) * (w / k_) * (1 + u))
        = ((1 + u) * ((1 + 4 * u) * (1 + u))) * (w / k_) := by ring
      _ ≤ (1 + 7 * u) * (w / k_) := mul_le_mul_of_nonneg_right p3 hS
  -- the product
  have hprod : g * rnd (1 + dl) ≤ (1 + 7 * u) * (w / k_) * ((1 + 10 * u) * T + 4 * u) := by
    have h5 : g * rnd (1 + dl) ≤ g * ((1 + 10 * u) * T + 4 * u) := by gcongr
    refine le_trans h5 ?_
    gcongr
  have hST : (w / k_ : ℚ) * T = M := by
    rw [hT]
    field_simp
  have hprod2 : g * rnd (1 + dl) ≤ (1 + 18 * u) * M + 5 * u * (w / k_) := by
    refine le_trans hprod ?_
    have e1 : (1 + 7 * u) * (w / k_) * ((1 + 10 * u) * T + 4 * u) =
        (1 + 7 * u) * (1 + 10 * u) * ((w / k_) * T) + (1 + 7 * u) * 4 * u * (w / k_) := by ring
    rw [e1, hST]
    exact add_le_add (mul_le_mul_of_nonneg_right p4 hMq) (mul_le_mul_of_nonneg_right p5 hS)
  have hfin := h.le_of_le hprod2 (by positivity)
  refine lt_of_le_of_lt hfin ?_
  have hSle : (w / k_ : ℚ) ≤ w := div_le_self (le_of_lt hwq) hkq
  have h8 : (1 + u) * ((1 + 18 * u) * M + 5 * u * (w / k_)) ≤ (1 + 20 * u) * M + 6 * u * w := by
    have e2 : (1 + u) * ((1 + 18 * u) * M + 5 * u * (w / k_)) =
        (1 + u) * (1 + 18 * u) * M + (1 + u) * (5 * u) * (w / k_) := by ring
    rw [e2]
    refine add_le_add (mul_le_mul_of_nonneg_right p6 hMq) ?_
    exact mul_le_mul p7 hSle hS (by positivity)
  have h11 : 0 ≤ u * M := by positivity
  have h12 : 0 ≤ u * w := by positivity
  have h13 : 40 * u * ((M : ℚ) + w) = 40 * (u * M) + 40 * (u * w) := by ring
  have h14 : (1 + 20 * u) * (M : ℚ) + 6 * u * w = M + 20 * (u * M) + 6 * (u * w) := by ring
  linarith

/-- The bound for a side does not exceed `maxweight` times the number of its labels, when the weight to divide does
not exceed `maxweight` times the number of labels. -/
theorem boundFor_side (h : RoundsWithin u rnd) {k_ ks : Nat} (hk : 0 < k_) (hks : ks ≤ k_) {w M : Int} (hw : 0 < w)
    (hM : 0 ≤ M) (hwM : w ≤ M * k_) (hsmall : 40 * u * ((M * ks : Int) + (w : ℚ)) < 1) :
    boundFor rnd k_ ks w M ≤ M * ks := by
  have h0 := h.nonneg
  have h3 := h.small
  obtain ⟨p1, p2, p3, p4, p5, p6, p7⟩ := h.poly1
  have hwq : (0 : ℚ) < (w : ℚ) := by exact_mod_cast hw
  have hMq : (0 : ℚ) ≤ (M : ℚ) := by exact_mod_cast hM
  have hkq : (1 : ℚ) ≤ (k_ : ℚ) := by exact_mod_cast hk
  have hkq0 : (0 : ℚ) < (k_ : ℚ) := by linarith
  have hsq0 : (0 : ℚ) ≤ (ks : ℚ) := by positivity
  have hsk : (ks : ℚ) ≤ (k_ : ℚ) := by exact_mod_cast hks
  have hwMq : (w : ℚ) ≤ (M : ℚ) * k_ := by exact_mod_cast hwM
  unfold boundFor
  dsimp only
  apply truncQ_le (by positivity)
  -- the quotient
  obtain ⟨c, hc⟩ : ∃ c, c = rnd (rnd (((M * k_ : Int) : ℚ)) / rnd (w : ℚ)) := ⟨_, rfl⟩
  rw [← hc]
  have hMk : (((M * k_ : Int) : ℚ)) = (M : ℚ) * k_ := by push_cast; ring
  have hMkn : (0 : ℚ) ≤ (((M * k_ : Int) : ℚ)) := by rw [hMk]; positivity
  obtain ⟨T, hT⟩ : ∃ T : ℚ, T = (M : ℚ) * k_ / w := ⟨_, rfl⟩
  have hTn : 1 ≤ T := by rw [hT, le_div_iff₀ hwq]; linarith
  have hcle : c ≤ (1 + 4 * u) * T := by
    have := h.div_le hMkn hwq
    rw [← hc] at this
    refine le_trans this (le_of_eq ?_)
    rw [hMk, hT]
  have hcn : 0 ≤ c := by rw [hc]; exact h.div_nonneg hMkn hwq
  -- the excess
  obtain ⟨e, he⟩ : ∃ e, e = rnd (c - 1) := ⟨_, rfl⟩
  rw [← he]
  have habs : |c - 1| ≤ c + 1 := by rw [_root_.abs_le]; constructor <;> linarith
  have hele : e ≤ c - 1 + u * (c + 1) := by
    have := h.abs_le (c - 1)
    rw [he]
    nlinarith
  have hTu : 0 ≤ u * T := by positivity
  have hTuu : u * u * T ≤ u / 1000 * T := mul_le_mul_of_nonneg_right h.sq.1 (by linarith)
  have heE : e ≤ T - 1 + 6 * u * T + u := by
    have h5 : (1 + u) * c ≤ (1 + u) * ((1 + 4 * u) * T) := by gcongr
    have h6 : (1 + u) * ((1 + 4 * u) * T) = T + 5 * (u * T) + 4 * (u * u * T) := by ring
    have h7 : c - 1 + u * (c + 1) = (1 + u) * c - 1 + u := by ring
    linarith
  have hEn : 0 ≤ T - 1 + 6 * u * T + u := by
    have : 0 ≤ 6 * u * T := by linarith
    linarith
  obtain ⟨q, hq⟩ : ∃ q : ℚ, q = ((Nat.log2 ks + 1 : Nat) : ℚ) := ⟨_, rfl⟩
  rw [← hq]
  have hq1 : 1 ≤ q := by rw [hq]; push_cast; linarith [show (0 : ℚ) ≤ (Nat.log2 ks : ℚ) by positivity]
  have heq : e / q ≤ T - 1 + 6 * u * T + u := by
    rw [div_le_iff₀ (by linarith)]
    nlinarith
  have hdl := h.le_of_le heq hEn
  obtain ⟨dl, hdle⟩ : ∃ dl, dl = rnd (e / q) := ⟨_, rfl⟩
  rw [← hdle] at hdl ⊢
  have hrd : rnd (1 + dl) ≤ (1 + 10 * u) * T + 4 * u := by
    have h5 : 1 + dl ≤ (1 + 8 * u) * T + u := by
      have h6 : (1 + u) * (T - 1 + 6 * u * T + u) = T - 1 + 7 * (u * T) + 6 * (u * u * T) + u * u := by ring
      have h7 := h.sq.1
      have h8 : (1 + 8 * u) * T = T + 8 * (u * T) := by ring
      have h9 : u ≤ u * T := by nlinarith
      linarith
    have h6 := h.le_of_le h5 (by positivity)
    refine le_trans h6 ?_
    have h7 : (1 + u) * ((1 + 8 * u) * T + u) = T + 9 * (u * T) + 8 * (u * u * T) + u + u * u := by ring
    have h8 := h.sq.1
    have h9 : (1 + 10 * u) * T = T + 10 * (u * T) := by ring
    linarith
  -- the weight of the side
  obtain ⟨g, hg⟩ : ∃ g, g = rnd (rnd (rnd (w : ℚ) / rnd (k_ : ℚ)) * rnd (ks : ℚ)) := ⟨_, rfl⟩
  rw [← hg]
  have hq1 := h.div_le (le_of_lt hwq) hkq0
  have hq1n := h.div_nonneg (le_of_lt hwq) hkq0
  have hone : rnd (ks : ℚ) ≤ (1 + u) * ks := h.le_of_le (le_refl (ks : ℚ)) hsq0
  have honen : 0 ≤ rnd (ks : ℚ) := h.nonneg_of_nonneg hsq0
  have hgn : 0 ≤ g := by rw [hg]; exact h.nonneg_of_nonneg (by positivity)
  have hS : (0 : ℚ) ≤ w / k_ * ks := by positivity
  have hgle : g ≤ (1 + 7 * u) * (w / k_ * ks) := by
    have h5 : rnd (rnd (w : ℚ) / rnd (k_ : ℚ)) * rnd (ks : ℚ) ≤ ((1 + 4 * u) * (w / k_)) * ((1 + u) * ks) := by
      gcongr
    rw [hg]
    refine le_trans (h.le_of_le h5 (by positivity)) ?_
    calc (1 + u) * ((1 + 4 * u) * (w / k_) * ((1 + u) * ks))
        = ((1 + u) * ((1 + 4 * u) * (1 + u))) * (w / k_ * ks) := by ring
      _ ≤ (1 + 7 * u) * (w / k_ * ks) := mul_le_mul_of_nonneg_right p3 hS
  -- the product
  have hprod : g * rnd (1 + dl) ≤ (1 + 7 * u) * (w / k_ * ks) * ((1 + 10 * u) * T + 4 * u) := by
    have h5 : g * rnd (1 + dl) ≤ g * ((1 + 10 * u) * T + 4 * u) := by gcongr
    refine le_trans h5 ?_
    gcongr
  have hST : (w / k_ * ks : ℚ) * T = M * ks := by
    rw [hT]
    field_simp
  have hMs : 0 ≤ (M : ℚ) * ks := by positivity
  have hprod2 : g * rnd (1 + dl) ≤ (1 + 18 * u) * (M * ks) + 5 * u * (w / k_ * ks) := by
    refine le_trans hprod ?_
    have e1 : (1 + 7 * u) * (w / k_ * ks) * ((1 + 10 * u) * T + 4 * u) =
        (1 + 7 * u) * (1 + 10 * u) * ((w / k_ * ks) * T) + (1 + 7 * u) * 4 * u * (w / k_ * ks) := by ring
    rw [e1, hST]
    exact add_le_add (mul_le_mul_of_nonneg_right p4 hMs) (mul_le_mul_of_nonneg_right p5 hS)
  have hfin := h.le_of_le hprod2 (by positivity)
  refine lt_of_le_of_lt hfin ?_
  have hSle : (w / k_ * ks : ℚ) ≤ w := by
    rw [div_mul_eq_mul_div, div_le_iff₀ hkq0]
    exact mul_le_mul_of_nonneg_left hsk (le_of_lt hwq)
  have h8 : (1 + u) * ((1 + 18 * u) * (M * ks) + 5 * u * (w / k_ * ks)) ≤
      (1 + 20 * u) * (M * ks) + 6 * u * w := by
    have e2 : (1 + u) * ((1 + 18 * u) * (M * ks) + 5 * u * (w / k_ * ks)) =
        (1 + u) * (1 + 18 * u) * (M * ks) + (1 + u) * (5 * u) * (w / k_ * ks) := by ring
    rw [e2]
    refine add_le_add (mul_le_mul_of_nonneg_right p6 hMs) ?_
    exact mul_le_mul p7 hSle hS (by positivity)
  have h11 : 0 ≤ u * ((M : ℚ) * ks) := by positivity
  have h12 : 0 ≤ u * w := by positivity
  push_cast at hsmall ⊢
  have h13 : 40 * u * ((M : ℚ) * ks + w) = 40 * (u * ((M : ℚ) * ks)) + 40 * (u * w) := by ring
  have h14 : (1 + 20 * u) * ((M : ℚ) * ks) + 6 * u * w = M * ks + 20 * (u * ((M : ℚ) * ks)) + 6 * (u * w) := by ring
  linarith

/-- `maxweight` is at most (1+ε)W/k up to rounding. -/
theorem maxWeight_le (h : RoundsWithin u rnd) {eps : ℚ} (heps : 0 ≤ eps) {W : Int} (hW : 0 ≤ W)
    {k : Nat} (hk : 0 < k) :
    0 ≤ maxWeight rnd eps W k ∧
      (maxWeight rnd eps W k : ℚ) ≤ (1 + 8 * u) * ((1 + eps) * W / k) := by
  have h0 := h.nonneg
  have h3 := h.small
  have hWq : (0 : ℚ) ≤ (W : ℚ) := by exact_mod_cast hW
  have hkq0 : (0 : ℚ) < (k : ℚ) := by exact_mod_cast hk
  unfold maxWeight
  have a1 := h.le_of_le (le_refl (1 + eps)) (by linarith)
  have a1n : 0 ≤ rnd (1 + eps) := h.nonneg_of_nonneg (by linarith)
  have a2 := h.le_of_le (le_refl (W : ℚ)) hWq
  have a2n : 0 ≤ rnd (W : ℚ) := h.nonneg_of_nonneg hWq
  have b : rnd (1 + eps) * rnd (W : ℚ) ≤ ((1 + u) * (1 + eps)) * ((1 + u) * W) := by gcongr
  have b' := h.le_of_le b (by positivity)
  have bn : 0 ≤ rnd (rnd (1 + eps) * rnd (W : ℚ)) := h.nonneg_of_nonneg (by positivity)
  have hkr := h.ge_of_nonneg (le_of_lt hkq0)
  have hkp := h.pos_of_pos hkq0
  have h1u : (0 : ℚ) < 1 - u := by linarith
  have d : rnd (rnd (1 + eps) * rnd (W : ℚ)) / rnd (k : ℚ) ≤
      ((1 + u) * (((1 + u) * (1 + eps)) * ((1 + u) * W))) / ((1 - u) * k) := by
    have : 0 < (1 - u) * (k : ℚ) := by positivity
    gcongr
  have dn : 0 ≤ rnd (rnd (1 + eps) * rnd (W : ℚ)) / rnd (k : ℚ) := by positivity
  have e1 : ((1 + u) * (((1 + u) * (1 + eps)) * ((1 + u) * W))) / ((1 - u) * k) =
      ((1 + u) ^ 3 / (1 - u)) * ((1 + eps) * W / k) := by
    field_simp
  rw [e1] at d
  have hq : 0 ≤ (1 + eps) * W / k := by positivity
  have c1 : (1 + u) ^ 3 / (1 - u) ≤ 1 + 5 * u := by
    rw [div_le_iff₀ h1u]
    nlinarith [mul_nonneg h0 h0, mul_nonneg (mul_nonneg h0 h0) h0]
  have d2 : rnd (rnd (1 + eps) * rnd (W : ℚ)) / rnd (k : ℚ) ≤ (1 + 5 * u) * ((1 + eps) * W / k) := by
    refine le_trans d ?_
    gcongr
  have f := h.le_of_le d2 (by positivity)
  have fn := h.nonneg_of_nonneg dn
  refine ⟨truncQ_nonneg fn, le_trans (truncQ_le_self fn) (le_trans f ?_)⟩
  rw [← mul_assoc]
  gcongr
  nlinarith

end PMondriaan
