import Verif.Proofs.RecSlack
import Verif.Props.Procs
import Verif.Props.Redistribute

/-
What the slack of a job gives for the two bounds, for the two sides, for the number of processors of each side and for
the maximum local weight.
-/

namespace PMondriaan

open Spec

/-- The shares of two sides within their bounds, with at least four labels. -/
theorem thirds {K klow khigh b : Nat} (hK4 : 4 ≤ K) (hkl : klow = K / 2) (hkh : khigh = K - klow)
    (hb : b = Nat.clog 2 K) (hb2 : 2 ≤ b) {om η s l C M w0 w1 : ℚ} (ho : 0 ≤ om) (hη0 : 0 ≤ η) (hsn : 0 ≤ s)
    (hl0 : 0 < l) (hMl : M = l + s) (hC : C < M) (hroom : needed om η b ≤ s)
    (htight : s * (b * (b + 1) / 2) + η * (b : ℚ) ^ 3 ≤ C) (htot : w0 + w1 = K * l)
    (up0 : w0 ≤ klow * (l + s / ((Nat.log2 klow + 1 : Nat) : ℚ)) + η)
    (up1 : w1 ≤ khigh * (l + s / ((Nat.log2 khigh + 1 : Nat) : ℚ)) + η) :
    33 / 100 * (K * l) ≤ w0 ∧ 33 / 100 * (K * l) ≤ w1 := by
  have hbK : b ≤ 2 → K ≤ 4 := by
    intro h
    rw [hb, Nat.clog_le_iff_le_pow (by decide)] at h
    simpa using h
  unfold needed at hroom
  rw [if_neg (by omega)] at hroom
  have hbq : (2 : ℚ) ≤ b := by exact_mod_cast hb2
  have hη4 : 4 * η ≤ s := by
    have h5 : 1 * (0 + 2 * η * 2) ≤ ((b : ℚ) - 1) * (om + 2 * η * b) := by
      have hb1 : (1 : ℚ) ≤ (b : ℚ) - 1 := by linarith
      gcongr
    linarith
  have hη3 : 0 ≤ η * (b : ℚ) ^ 3 := by positivity
  have halves : ∀ ks : Nat, 2 ≤ ks → (ks : ℚ) * (s / ((Nat.log2 ks + 1 : Nat) : ℚ)) ≤ ks * (s / 2) := by
    intro ks hks
    have h5 : (2 : ℚ) ≤ ((Nat.log2 ks + 1 : Nat) : ℚ) := by
      have := log2_pos hks
      exact_mod_cast (by omega : 2 ≤ Nat.log2 ks + 1)
    gcongr
  have a0 := halves klow (by omega)
  have a1 := halves khigh (by omega)
  rw [mul_add] at up0 up1
  have hkk : (klow : ℚ) + khigh = K := by
    have : klow + khigh = K := by omega
    exact_mod_cast this
  have hkl' : (klow : ℚ) * l + khigh * l = K * l := by rw [← hkk]; ring
  by_cases hK4 : K = 4
  · have c0 : klow = 2 := by omega
    have c1 : khigh = 2 := by omega
    rw [c0] at a0 up0
    rw [c1] at a1 up1
    have hs2 : 2 * s < l := by
      have h6 : (2 : ℚ) * (2 + 1) ≤ b * (b + 1) := mul_le_mul hbq (by linarith) (by norm_num) (by linarith)
      have h5 : s * 3 ≤ s * ((b : ℚ) * (b + 1) / 2) := mul_le_mul_of_nonneg_left (by linarith) hsn
      linarith
    rw [hK4] at htot ⊢
    push_cast at a0 a1 up0 up1 htot ⊢
    constructor <;> linarith
  · have hb3 : 3 ≤ b := by
      by_contra hc
      have := hbK (by omega)
      omega
    have hbq3 : (3 : ℚ) ≤ b := by exact_mod_cast hb3
    have hs5 : 5 * s < l := by
      have h6 : (3 : ℚ) * (3 + 1) ≤ b * (b + 1) := mul_le_mul hbq3 (by linarith) (by norm_num) (by linarith)
      have h5 : s * 6 ≤ s * ((b : ℚ) * (b + 1) / 2) := mul_le_mul_of_nonneg_left (by linarith) hsn
      linarith
    have hKq : (5 : ℚ) ≤ K := by exact_mod_cast (by omega : 5 ≤ K)
    have d0 : (klow : ℚ) ≤ K / 2 := by
      have : 2 * klow ≤ K := by omega
      have : 2 * (klow : ℚ) ≤ K := by exact_mod_cast this
      linarith
    have d1 : (khigh : ℚ) ≤ (K + 1) / 2 := by
      have : 2 * khigh ≤ K + 1 := by omega
      have : 2 * (khigh : ℚ) ≤ K + 1 := by exact_mod_cast this
      linarith
    have hk0 : (0 : ℚ) ≤ klow := by positivity
    have hk1 : (0 : ℚ) ≤ khigh := by positivity
    have f0 : (klow : ℚ) * (s / 2) ≤ klow * (l / 10) := mul_le_mul_of_nonneg_left (by linarith) hk0
    have f1 : (khigh : ℚ) * (s / 2) ≤ khigh * (l / 10) := mul_le_mul_of_nonneg_left (by linarith) hk1
    have g0 : (klow : ℚ) * l ≤ K / 2 * l := mul_le_mul_of_nonneg_right d0 hl0.le
    have g1 : (khigh : ℚ) * l ≤ (K + 1) / 2 * l := mul_le_mul_of_nonneg_right d1 hl0.le
    have hKl : 5 * l ≤ K * l := mul_le_mul_of_nonneg_right hKq hl0.le
    constructor <;> linarith

/-- What the slack of a job with at least two labels gives: the weight is positive and at most `M K`, the bounds are
not negative and leave over at least `K om / 2`, less two; two sides within these bounds have the slack they need, and
with at least four labels each has about a third of the weight. -/
theorem Margin.bounds {u : ℚ} {rnd : ℚ → ℚ} (hr : RoundsWithin u rnd) {M : Int} {om C : ℚ} {K k : Nat} {w : Int}
    (hM : 0 ≤ M) (ho : 0 ≤ om) (hC : C < M) (hK : 2 ≤ K) (hKk : K ≤ k) (h : Margin M om (20 * u * (M * k)) C K w) :
    0 < w ∧ w ≤ M * K ∧ 0 ≤ boundFor rnd K (K / 2) w M ∧ 0 ≤ boundFor rnd K (K - K / 2) w M ∧
    (w : ℚ) + K * om / 2 < boundFor rnd K (K / 2) w M + boundFor rnd K (K - K / 2) w M + 2 ∧
    ∀ w0 w1 : Int, w0 + w1 = w → w0 ≤ boundFor rnd K (K / 2) w M → w1 ≤ boundFor rnd K (K - K / 2) w M →
      (2 ≤ K / 2 → Margin M om (20 * u * (M * k)) C (K / 2) w0) ∧
      (2 ≤ K - K / 2 → Margin M om (20 * u * (M * k)) C (K - K / 2) w1) ∧
      (4 ≤ K → 33 / 100 * (w : ℚ) ≤ w0 ∧ 33 / 100 * (w : ℚ) ≤ w1) := by
  obtain ⟨η, hη⟩ : ∃ η, η = 20 * u * ((M : ℚ) * k) := ⟨_, rfl⟩
  rw [← hη] at h ⊢
  have hu0 := hr.nonneg
  have hMq : (0 : ℚ) ≤ M := by exact_mod_cast hM
  have hη0 : 0 ≤ η := by rw [hη]; positivity
  have hwpos : 0 < w := h.pos hK ho hη0 hC
  have hroom0 := needed_ge ho hη0 (Nat.clog 2 K)
  have hroom := h.room
  have htight := h.tight
  have hK0 : (0 : ℚ) < K := by exact_mod_cast (by omega : 0 < K)
  have hwM : w ≤ M * K := by
    have h1 : (w : ℚ) / K ≤ M := by linarith
    rw [div_le_iff₀ hK0] at h1
    exact_mod_cast h1
  obtain ⟨klow, hkl⟩ : ∃ x, x = K / 2 := ⟨_, rfl⟩
  obtain ⟨khigh, hkh⟩ : ∃ x, x = K - klow := ⟨_, rfl⟩
  have hηs : ∀ ks : Nat, ks ≤ k → 20 * u * ((M : ℚ) * ks) ≤ η := by
    intro ks hks
    have : (ks : ℚ) ≤ k := by exact_mod_cast hks
    rw [hη]; gcongr
  have n0 := boundFor_near hr (k_ := K) (ks := klow) (by omega) hwpos hM hwM
  have n1 := boundFor_near hr (k_ := K) (ks := khigh) (by omega) hwpos hM hwM
  have e0 := hηs klow (by omega)
  have e1 := hηs khigh (by omega)
  obtain ⟨m0, hm0⟩ : ∃ x, x = boundFor rnd K klow w M := ⟨_, rfl⟩
  obtain ⟨m1, hm1⟩ : ∃ x, x = boundFor rnd K khigh w M := ⟨_, rfl⟩
  rw [← hkl, ← hkh, ← hm0, ← hm1]
  rw [← hm0] at n0
  rw [← hm1] at n1
  obtain ⟨s, hs⟩ : ∃ s : ℚ, s = M - w / K := ⟨_, rfl⟩
  obtain ⟨l, hl⟩ : ∃ l : ℚ, l = w / K := ⟨_, rfl⟩
  rw [← hs] at hroom htight
  rw [← hs, ← hl] at n0 n1
  have hs0 : om / 2 + η ≤ s := le_trans hroom0 hroom
  have hsn : 0 ≤ s := by linarith
  have hMl : (M : ℚ) = l + s := by rw [hs, hl]; ring
  have hkk : (klow : ℚ) + khigh = K := by
    have : klow + khigh = K := by omega
    exact_mod_cast this
  have hwl : (w : ℚ) = K * l := by rw [hl]; field_simp
  have hl0 : 0 < l := by
    have : (0 : ℚ) < w := by exact_mod_cast hwpos
    rw [hl]; positivity
  have hcl := clog_half hK
  rw [← hkl, ← hkh] at hcl
  -- the part of the slack for each side
  have share : ∀ ks : Nat, 1 ≤ ks → ks ≤ khigh →
      ks * om / 2 + η ≤ ks * (s / ((Nat.log2 ks + 1 : Nat) : ℚ)) := by
    intro ks hk1 hk2
    by_cases hK2 : K = 2
    · have : ks = 1 := by omega
      subst this
      have : Nat.log2 1 = 0 := by decide
      rw [this]
      push_cast
      linarith
    · have hb2 : 2 ≤ Nat.clog 2 K := by
        have := clog_pos' (k := khigh) (by omega)
        omega
      obtain ⟨b, hb⟩ : ∃ b, b = Nat.clog 2 K := ⟨_, rfl⟩
      rw [← hb] at hb2 hroom
      unfold needed at hroom
      rw [if_neg (by omega)] at hroom
      have hq : Nat.log2 ks + 1 ≤ b := by
        rw [hb, hcl, Nat.log2_eq_log_two]
        have h1 : Nat.log 2 ks ≤ Nat.log 2 khigh := Nat.log_mono_right hk2
        have h2 := Nat.log_le_clog 2 khigh
        omega
      have hqq : ((Nat.log2 ks + 1 : Nat) : ℚ) ≤ b := by exact_mod_cast hq
      have hq0 : (0 : ℚ) < ((Nat.log2 ks + 1 : Nat) : ℚ) := by positivity
      have hbq : (2 : ℚ) ≤ b := by exact_mod_cast hb2
      have hks : (1 : ℚ) ≤ ks := by exact_mod_cast hk1
      have h1 : om / 2 + η ≤ s / ((Nat.log2 ks + 1 : Nat) : ℚ) := by
        rw [le_div_iff₀ hq0]
        have h2 : (om / 2 + η) * ((Nat.log2 ks + 1 : Nat) : ℚ) ≤ (om / 2 + η) * b :=
          mul_le_mul_of_nonneg_left hqq (by linarith)
        have h3 : (om / 2 + η) * b ≤ ((b : ℚ) - 1) * (om + 2 * η * b) := by
          have h4 : 0 ≤ om * ((b : ℚ) - 2) := mul_nonneg ho (by linarith)
          have h5 : 0 ≤ η * ((b : ℚ) * (2 * b - 3)) := by
            apply mul_nonneg hη0
            apply mul_nonneg <;> linarith
          nlinarith
        linarith
      have h2 := mul_le_mul_of_nonneg_left h1 (by linarith : (0 : ℚ) ≤ ks)
      have h3 : η ≤ ks * η := le_mul_of_one_le_left hη0 hks
      linarith
  have sh0 := share klow (by omega) (by omega)
  have sh1 := share khigh (by omega) (le_refl _)
  have hk0 : (0 : ℚ) ≤ klow := by positivity
  have hk1 : (0 : ℚ) ≤ khigh := by positivity
  have n01 := n0.1
  have n11 := n1.1
  rw [mul_add] at n01 n11
  have hkom : (klow : ℚ) * om / 2 + khigh * om / 2 = K * om / 2 := by rw [← hkk]; ring
  have hkl' : (klow : ℚ) * l + khigh * l = w := by rw [hwl, ← hkk]; ring
  have p0 : 0 ≤ (klow : ℚ) * l := by positivity
  have p1 : 0 ≤ (khigh : ℚ) * l := by positivity
  have o0 : 0 ≤ (klow : ℚ) * om / 2 := by positivity
  have o1 : 0 ≤ (khigh : ℚ) * om / 2 := by positivity
  refine ⟨hwpos, hwM, ?_, ?_, by linarith, ?_⟩
  · have h1 : (-1 : ℚ) < m0 := by linarith
    have : (-1 : Int) < m0 := by exact_mod_cast h1
    omega
  · have h1 : (-1 : ℚ) < m1 := by linarith
    have : (-1 : Int) < m1 := by exact_mod_cast h1
    omega
  intro w0 w1 htot r0 r1
  have up0 : (w0 : ℚ) ≤ klow * (l + s / ((Nat.log2 klow + 1 : Nat) : ℚ)) + η := by
    have : (w0 : ℚ) ≤ m0 := by exact_mod_cast r0
    linarith [n0.2]
  have up1 : (w1 : ℚ) ≤ khigh * (l + s / ((Nat.log2 khigh + 1 : Nat) : ℚ)) + η := by
    have : (w1 : ℚ) ≤ m1 := by exact_mod_cast r1
    linarith [n1.2]
  refine ⟨?_, ?_, ?_⟩
  · intro h2
    refine h.side ho hη0 (ko := khigh) (by omega) h2 (by omega) hcl
      (Nat.clog_mono_right 2 (by omega)) ?_ (by rw [← hs, ← hl]; exact up0) ?_
    · have h3 : Nat.clog 2 khigh ≤ Nat.log2 khigh + 1 := clog_le_log2
      have h4 : khigh ≤ 2 * klow := by omega
      calc Nat.clog 2 khigh * khigh ≤ (Nat.log2 khigh + 1) * (2 * klow) := Nat.mul_le_mul h3 h4
        _ = 2 * klow * (Nat.log2 khigh + 1) := Nat.mul_comm _ _
    · rw [show w - w0 = w1 by omega, ← hs, ← hl]; exact up1
  · intro h2
    refine h.side ho hη0 (ko := klow) (by omega) h2 (by omega) hcl (le_refl _) ?_ (by rw [← hs, ← hl]; exact up1) ?_
    · have h3 : Nat.clog 2 khigh ≤ Nat.log2 klow + 1 := by
        rw [hkh, hkl]; exact clog_le_log2_low (by omega)
      have h4 : klow ≤ 2 * khigh := by omega
      calc Nat.clog 2 khigh * klow ≤ (Nat.log2 klow + 1) * (2 * khigh) := Nat.mul_le_mul h3 h4
        _ = 2 * khigh * (Nat.log2 klow + 1) := Nat.mul_comm _ _
    · rw [show w - w1 = w0 by omega, ← hs, ← hl]; exact up0
  · intro h4
    have hb2 : 2 ≤ Nat.clog 2 K := by
      have := clog_pos' (k := khigh) (by omega)
      omega
    rw [hwl]
    exact thirds h4 hkl hkh rfl hb2 ho hη0 hsn hl0 hMl hC hroom htight (by rw [← hwl]; exact_mod_cast htot) up0 up1

/-- With at least four labels both sides get a processor. -/
theorem share_procs {rnd : ℚ → ℚ} (hk : KeepsInts rnd) (hr : RoundsWithin (1 / 2 ^ 53) rnd) {w w0 w1 : Int}
    (hw : 0 < w) (hw' : w ≤ 2 ^ 53) (htot : w0 + w1 = w) {p : Nat} (h2 : 2 ≤ p) (hp : p ≤ 2 ^ 50)
    (h0 : 33 / 100 * (w : ℚ) ≤ w0) (h1 : 33 / 100 * (w : ℚ) ≤ w1) :
    1 ≤ pLow rnd w0 w1 p ∧ pLow rnd w0 w1 p ≤ p - 1 := by
  have hwq : (0 : ℚ) < w := by exact_mod_cast hw
  have hsum : (w0 : ℚ) + w1 = w := by exact_mod_cast htot
  have g0 : 0 ≤ w0 := by
    have : (0 : ℚ) ≤ w0 := by linarith
    exact_mod_cast this
  have g1 : 0 ≤ w1 := by
    have : (0 : ℚ) ≤ w1 := by linarith
    exact_mod_cast this
  have hpq : (2 : ℚ) ≤ p := by exact_mod_cast h2
  obtain ⟨c0, c1⟩ := C55_both_partial hk hr g0 g1 (by omega) (by omega) hp
  rw [hsum] at c0 c1
  constructor
  · apply c0
    have : 2 * 2 * (33 / 100 * (w : ℚ)) ≤ 2 * p * w0 := by
      have : (2 : ℚ) * 2 ≤ 2 * p := by linarith
      have h3 : 0 ≤ 33 / 100 * (w : ℚ) := by linarith
      exact mul_le_mul this h0 h3 (by linarith)
    have h4 : (1 - 2 / 2 ^ 53 : ℚ) * (2 * 2 * (33 / 100 * (w : ℚ))) ≤ (1 - 2 / 2 ^ 53) * (2 * p * w0) :=
      mul_le_mul_of_nonneg_left this (by norm_num)
    refine le_trans ?_ h4
    norm_num
    linarith
  · apply c1
    have h3 : (p : ℚ) * (33 / 100 * w) ≤ p * w1 := mul_le_mul_of_nonneg_left h1 (by linarith)
    refine le_trans ?_ h3
    have h4 : (1 / 2 + 4 / 2 ^ 53 * ((p : ℚ) + 1)) ≤ p * (33 / 100) := by
      norm_num
      linarith
    have h5 := mul_le_mul_of_nonneg_left h4 hwq.le
    linarith

/-- The maximum local weight from above. -/
theorem newMaxLocal_le {rnd : ℚ → ℚ} (hk : KeepsInts rnd) (hr : RoundsWithin (1 / 2 ^ 53) rnd) {w : Int}
    (h0 : 0 ≤ w) (h1 : w ≤ 2 ^ 47) {q : Nat} (hq : 0 < q) (hq1 : q ≤ 2 ^ 53) {eta : ℚ} (heta : 0 ≤ eta)
    (heta1 : eta ≤ 1) : (newMaxLocal rnd w q eta : ℚ) ≤ ((w : ℚ) / q + 1) * (1 + eta) + 1 := by
  have hwq : (0 : ℚ) ≤ w := by exact_mod_cast h0
  have hqq : (0 : ℚ) < q := by exact_mod_cast hq
  have hq1' : (1 : ℚ) ≤ q := by exact_mod_cast hq
  have e1 : rnd (w : ℚ) = w := hk.exact h0 (by omega)
  have e2 : rnd (q : ℚ) = q := by
    have := hk.exact (n := (q : Int)) (by omega) (by exact_mod_cast hq1)
    exact_mod_cast this
  unfold newMaxLocal
  rw [e1, e2]
  obtain ⟨x, hx⟩ : ∃ x, x = (w : ℚ) / q := ⟨_, rfl⟩
  rw [← hx]
  have hx0 : 0 ≤ x := by rw [hx]; positivity
  have hxw : x ≤ w := by rw [hx]; exact div_le_self hwq hq1'
  have hw47 : (w : ℚ) ≤ 2 ^ 47 := by exact_mod_cast h1
  obtain ⟨c, hc⟩ : ∃ c : Int, c = ⌈rnd x⌉ := ⟨_, rfl⟩
  rw [← hc]
  have hc0 : 0 ≤ c := by rw [hc]; exact Int.ceil_nonneg (hr.nonneg_of_nonneg hx0)
  have hcq : (0 : ℚ) ≤ c := by exact_mod_cast hc0
  have hcx : c ≤ ⌈x⌉ := by
    rw [hc, Int.ceil_le]
    apply hk.le _ _ (Int.ceil_nonneg hx0) _ (Int.le_ceil x)
    rw [Int.ceil_le]
    push_cast
    linarith
  have hcx' : (c : ℚ) ≤ x + 1 := by
    have h3 : (c : ℚ) ≤ (⌈x⌉ : ℚ) := by exact_mod_cast hcx
    have := Int.ceil_lt_add_one x
    linarith
  have a1 := hr.le_of_le (le_refl (1 + eta)) (by linarith)
  have a0 : 0 ≤ rnd (1 + eta) := hr.nonneg_of_nonneg (by linarith)
  have b1 : (c : ℚ) * rnd (1 + eta) ≤ (x + 1) * ((1 + 1 / 2 ^ 53) * (1 + eta)) :=
    mul_le_mul hcx' a1 a0 (by linarith)
  have b2 := hr.le_of_le b1 (by positivity)
  refine truncQ_le_add (le_trans b2 ?_) (by positivity)
  have b3 : (x + 1) * (1 + eta) ≤ 2 ^ 49 := by
    have : (x + 1) * (1 + eta) ≤ (2 ^ 47 + 1) * (1 + 1) := by gcongr; linarith
    refine le_trans this (by norm_num)
  have b4 : (1 + 1 / 2 ^ 53 : ℚ) * ((x + 1) * ((1 + 1 / 2 ^ 53) * (1 + eta))) =
      (x + 1) * (1 + eta) + (2 / 2 ^ 53 + 1 / 2 ^ 106) * ((x + 1) * (1 + eta)) := by ring
  rw [b4]
  have b5 : (2 / 2 ^ 53 + 1 / 2 ^ 106 : ℚ) * ((x + 1) * (1 + eta)) ≤ (2 / 2 ^ 53 + 1 / 2 ^ 106 : ℚ) * 2 ^ 49 :=
    mul_le_mul_of_nonneg_left b3 (by norm_num)
  have b6 : (2 / 2 ^ 53 + 1 / 2 ^ 106 : ℚ) * 2 ^ 49 ≤ 1 := by norm_num
  linarith

end PMondriaan
