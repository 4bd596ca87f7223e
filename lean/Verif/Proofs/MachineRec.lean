import Verif.Model.MachineRec
import Verif.Proofs.Bounds
import Verif.Proofs.RecBisect
import Verif.Proofs.MachineMl
import Verif.Props.MachineMl
import Verif.Props.RecBisect

/-
Lemmas for C107: the bounds handed to nested bisections stay within the weights, so that the recursion
does not overflow.
-/

namespace PMondriaan

open Spec

variable {u : ℚ} {rnd : ℚ → ℚ}

theorem truncQ_nonneg_of_gt {x : ℚ} (h : -1 < x) : 0 ≤ truncQ x := by
  unfold truncQ
  split
  · exact Int.floor_nonneg.2 ‹_›
  · have : -1 < ⌈x⌉ := by rw [Int.lt_ceil]; push_cast; exact h
    omega

/-- The weight per side, rounded. -/
theorem RoundsWithin.share (h : RoundsWithin u rnd) {k_ ks : Nat} (hk : 0 < k_) (hks : ks ≤ k_) {w : Int} (hw : 0 < w) :
    0 ≤ rnd (rnd (rnd (w : ℚ) / rnd (k_ : ℚ)) * rnd (ks : ℚ)) ∧
      rnd (rnd (rnd (w : ℚ) / rnd (k_ : ℚ)) * rnd (ks : ℚ)) ≤ (1 + 7 * u) * w := by
  have h0 := h.nonneg
  obtain ⟨p1, p2, p3, p4, p5, p6, p7⟩ := h.poly1
  have hwq : (0 : ℚ) < (w : ℚ) := by exact_mod_cast hw
  have hkq0 : (0 : ℚ) < (k_ : ℚ) := by exact_mod_cast hk
  have hksq : (0 : ℚ) ≤ (ks : ℚ) := Nat.cast_nonneg _
  have hksk : (ks : ℚ) ≤ k_ := by exact_mod_cast hks
  have hq1 := h.div_le (le_of_lt hwq) hkq0
  have hq1n := h.div_nonneg (le_of_lt hwq) hkq0
  have hone := h.le_of_le (le_refl (ks : ℚ)) hksq
  have honen := h.nonneg_of_nonneg hksq
  refine ⟨h.nonneg_of_nonneg (by positivity), ?_⟩
  have h5 : rnd (rnd (w : ℚ) / rnd (k_ : ℚ)) * rnd (ks : ℚ) ≤ ((1 + 4 * u) * (w / k_)) * ((1 + u) * ks) := by
    gcongr
  have hS : (w / k_ : ℚ) * ks ≤ w := by
    rw [div_mul_eq_mul_div, div_le_iff₀ hkq0]
    gcongr
  have hSn : 0 ≤ (w / k_ : ℚ) * ks := by positivity
  refine le_trans (h.le_of_le h5 (by positivity)) ?_
  calc (1 + u) * ((1 + 4 * u) * (w / k_) * ((1 + u) * ks))
      = ((1 + u) * ((1 + 4 * u) * (1 + u))) * ((w / k_) * ks) := by ring
    _ ≤ (1 + 7 * u) * ((w / k_) * ks) := mul_le_mul_of_nonneg_right p3 hSn
    _ ≤ (1 + 7 * u) * w := by gcongr

/-- A bound is never negative. -/
theorem boundFor_nonneg (h : RoundsWithin u rnd) {k_ ks : Nat} (hk : 0 < k_) (hks : ks ≤ k_) {w M : Int} (hw : 0 < w)
    (hM : 0 ≤ M) (hsmall : 10 * u * (w : ℚ) < 1) : 0 ≤ boundFor rnd k_ ks w M := by
  have h0 := h.nonneg
  have h3 := h.small
  have hwq : (0 : ℚ) < (w : ℚ) := by exact_mod_cast hw
  have hMq : (0 : ℚ) ≤ (M : ℚ) := by exact_mod_cast hM
  have hkq0 : (0 : ℚ) < (k_ : ℚ) := by exact_mod_cast hk
  obtain ⟨s1, s2⟩ := h.sq
  obtain ⟨gn, gle⟩ := h.share hk hks hw
  unfold boundFor
  dsimp only
  apply truncQ_nonneg_of_gt
  have hMkn : (0 : ℚ) ≤ (((M * k_ : Int) : ℚ)) := by push_cast; positivity
  have hcn := h.div_nonneg hMkn hwq
  generalize rnd (rnd (((M * k_ : Int) : ℚ)) / rnd (w : ℚ)) = c at hcn ⊢
  generalize rnd (rnd (rnd (w : ℚ) / rnd (k_ : ℚ)) * rnd (ks : ℚ)) = g at gn gle ⊢
  have hq : (1 : ℚ) ≤ ((Nat.log2 ks + 1 : Nat) : ℚ) := by
    exact_mod_cast Nat.succ_le_succ (Nat.zero_le _)
  generalize ((Nat.log2 ks + 1 : Nat) : ℚ) = q at hq ⊢
  have hq0 : 0 < q := by linarith
  by_cases hc1 : 1 ≤ c
  · have he := h.nonneg_of_nonneg (x := c - 1) (by linarith)
    have hd := h.nonneg_of_nonneg (x := rnd (c - 1) / q) (by positivity)
    have hr := h.nonneg_of_nonneg (x := 1 + rnd (rnd (c - 1) / q)) (by linarith)
    have := h.nonneg_of_nonneg (mul_nonneg gn hr)
    linarith
  · push Not at hc1
    have he : -(1 + u) ≤ rnd (c - 1) := by
      have := h.abs_ge (c - 1)
      rw [abs_of_neg (by linarith)] at this
      nlinarith
    obtain ⟨e, hee⟩ : ∃ e, e = rnd (c - 1) := ⟨_, rfl⟩
    rw [← hee] at he ⊢
    have hdiv : -(1 + u) ≤ e / q := by
      rw [le_div_iff₀ hq0]
      nlinarith
    obtain ⟨x, hx⟩ : ∃ x, x = e / q := ⟨_, rfl⟩
    rw [← hx] at hdiv ⊢
    have hd : -(1 + 3 * u) ≤ rnd x := by
      by_cases hx0 : 0 ≤ x
      · have := h.nonneg_of_nonneg hx0
        linarith
      · push Not at hx0
        have := h.abs_ge x
        rw [abs_of_neg hx0] at this
        have h5 : -(1 + u) * (1 + u) ≤ x * (1 + u) := mul_le_mul_of_nonneg_right (by linarith) (by linarith)
        have h6 : x * (1 + u) = x - u * -x := by ring
        have h7 : -(1 + u) * (1 + u) = -(1 + 2 * u + u * u) := by ring
        linarith
    have hr : -(4 * u) ≤ rnd (1 + rnd x) := by
      by_cases hx0 : 0 ≤ 1 + rnd x
      · have := h.nonneg_of_nonneg hx0
        linarith
      · push Not at hx0
        have := h.abs_ge (1 + rnd x)
        rw [abs_of_neg hx0] at this
        nlinarith
    generalize rnd (1 + rnd x) = r at hr ⊢
    have hprod : -(5 * (u * w)) ≤ g * r := by
      have h5 : -(4 * u) * g ≤ g * r := by nlinarith
      have h6 : (4 * u) * g ≤ (4 * u) * ((1 + 7 * u) * w) := by gcongr
      have h7 : (4 * u) * ((1 + 7 * u) * w) = 4 * (u * w) + 28 * (u * u * w) := by ring
      have h8 : u * u * w ≤ u / 1000 * w := mul_le_mul_of_nonneg_right s1 (le_of_lt hwq)
      have h9 : 0 ≤ u * w := by positivity
      linarith
    have h9 : 0 ≤ u * w := by positivity
    by_cases hp : 0 ≤ g * r
    · have := h.nonneg_of_nonneg hp
      linarith
    · push Not at hp
      have := h.abs_ge (g * r)
      rw [abs_of_neg hp] at this
      have h10 : u * -(g * r) ≤ -(g * r) := by nlinarith
      linarith

/-- The bound for a side when the weight exceeds all that is allowed: at most the weight. -/
theorem boundFor_over (h : RoundsWithin u rnd) {k_ ks : Nat} (hk : 0 < k_) (hks : ks ≤ k_) {w M : Int} (hw : 0 < w)
    (hM : 0 ≤ M) (hwM : M * k_ ≤ w) (hsmall : 40 * u * (w : ℚ) < 1) : boundFor rnd k_ ks w M ≤ w := by
  have h0 := h.nonneg
  have h3 := h.small
  have hwq : (0 : ℚ) < (w : ℚ) := by exact_mod_cast hw
  have hMq : (0 : ℚ) ≤ (M : ℚ) := by exact_mod_cast hM
  have hkq0 : (0 : ℚ) < (k_ : ℚ) := by exact_mod_cast hk
  obtain ⟨s1, s2⟩ := h.sq
  obtain ⟨gn, gle⟩ := h.share hk hks hw
  unfold boundFor
  dsimp only
  apply truncQ_le (le_of_lt hw)
  have hMkn : (0 : ℚ) ≤ (((M * k_ : Int) : ℚ)) := by push_cast; positivity
  have hcle : rnd (rnd (((M * k_ : Int) : ℚ)) / rnd (w : ℚ)) ≤ 1 + 4 * u := by
    have h5 := h.div_le hMkn hwq
    have h6 : ((M * k_ : Int) : ℚ) / w ≤ 1 := by
      rw [div_le_one hwq]
      exact_mod_cast hwM
    have h7 : (1 + 4 * u) * (((M * k_ : Int) : ℚ) / w) ≤ (1 + 4 * u) * 1 := by gcongr
    linarith
  generalize rnd (rnd (((M * k_ : Int) : ℚ)) / rnd (w : ℚ)) = c at hcle ⊢
  generalize rnd (rnd (rnd (w : ℚ) / rnd (k_ : ℚ)) * rnd (ks : ℚ)) = g at gn gle ⊢
  have hq : (1 : ℚ) ≤ ((Nat.log2 ks + 1 : Nat) : ℚ) := by
    exact_mod_cast Nat.succ_le_succ (Nat.zero_le _)
  generalize ((Nat.log2 ks + 1 : Nat) : ℚ) = q at hq ⊢
  have hq0 : 0 < q := by linarith
  have he : rnd (c - 1) ≤ 5 * u := by
    have := h.le_of_le (x := c - 1) (y := 4 * u) (by linarith) (by linarith)
    nlinarith
  generalize rnd (c - 1) = e at he ⊢
  have hdiv : e / q ≤ 5 * u := by
    rw [div_le_iff₀ hq0]
    nlinarith
  have hd : rnd (e / q) ≤ 6 * u := by
    have := h.le_of_le hdiv (by linarith)
    nlinarith
  generalize rnd (e / q) = d at hd ⊢
  have hr : rnd (1 + d) ≤ 1 + 8 * u := by
    have := h.le_of_le (x := 1 + d) (y := 1 + 6 * u) (by linarith) (by linarith)
    nlinarith
  generalize rnd (1 + d) = r at hr ⊢
  have hprod : g * r ≤ (1 + 16 * u) * w := by
    have h5 : g * r ≤ g * (1 + 8 * u) := by gcongr
    have h6 : g * (1 + 8 * u) ≤ ((1 + 7 * u) * w) * (1 + 8 * u) := by gcongr
    have h7 : ((1 + 7 * u) * w) * (1 + 8 * u) = (1 + 15 * u + 56 * (u * u)) * w := by ring
    have h8 : (1 + 15 * u + 56 * (u * u)) * w ≤ (1 + 16 * u) * w := by
      apply mul_le_mul_of_nonneg_right _ (le_of_lt hwq)
      linarith
    linarith
  have hfin := h.le_of_le hprod (by positivity)
  have h9 : (1 + u) * ((1 + 16 * u) * w) = w + 17 * (u * w) + 16 * (u * u * w) := by ring
  have h8 : u * u * w ≤ u / 1000 * w := mul_le_mul_of_nonneg_right s1 (le_of_lt hwq)
  have h10 : 0 ≤ u * w := by positivity
  linarith

/-- All bounds: between zero and the larger of the weight to divide and `maxweight` times the number of labels. -/
theorem boundFor_range (h : RoundsWithin u rnd) {k_ ks : Nat} (hk : 0 < k_) (hks : ks ≤ k_) {w M : Int} (hw : 0 < w)
    (hM : 0 ≤ M) (hsmall : 40 * u * ((M * k_ : Int) + (w : ℚ)) < 1) :
    0 ≤ boundFor rnd k_ ks w M ∧ boundFor rnd k_ ks w M ≤ max w (M * k_) := by
  have h0 := h.nonneg
  have hwq : (0 : ℚ) < (w : ℚ) := by exact_mod_cast hw
  have hMkn : (0 : ℚ) ≤ (((M * k_ : Int) : ℚ)) := by exact_mod_cast mul_nonneg hM (Int.natCast_nonneg k_)
  have e1 : 0 ≤ u * w := by positivity
  have e2 : 0 ≤ u * ((M * k_ : Int) : ℚ) := by positivity
  have e3 : 40 * u * (((M * k_ : Int) : ℚ) + (w : ℚ)) = 40 * (u * ((M * k_ : Int) : ℚ)) + 40 * (u * w) := by ring
  refine ⟨boundFor_nonneg h hk hks hw hM (by nlinarith), ?_⟩
  rcases le_total w (M * k_) with hc | hc
  · have hle : M * (ks : Int) ≤ M * k_ := by
      apply mul_le_mul_of_nonneg_left _ hM
      exact_mod_cast hks
    have := boundFor_side h hk hks hw hM hc (by
      have h5 : ((M * ks : Int) : ℚ) ≤ ((M * k_ : Int) : ℚ) := by exact_mod_cast hle
      have h6 : u * ((M * ks : Int) : ℚ) ≤ u * ((M * k_ : Int) : ℚ) := by gcongr
      have h7 : 40 * u * (((M * ks : Int) : ℚ) + (w : ℚ)) = 40 * (u * ((M * ks : Int) : ℚ)) + 40 * (u * w) := by ring
      linarith)
    exact le_trans (le_trans this hle) (le_max_right _ _)
  · exact le_trans (boundFor_over h hk hks hw hM hc (by nlinarith)) (le_max_left _ _)

theorem long_small {x : Int} (h0 : 0 ≤ x) {L : Int} (hL : L ≤ 100000000000000) (h1 : x ≤ L) : long x = .ok x := by
  unfold long
  rw [if_pos ⟨by omega, by omega⟩]

/-- The bounds in 64 bits. -/
theorem computeMax64_eq {L : Int} (hL : L ≤ 100000000000000) (h : RoundsWithin (1 / 2 ^ 53) rnd) {k_ klow khigh : Nat} (hk : 0 < k_) (hl : klow ≤ k_)
    (hh : khigh ≤ k_) {w M : Int} (hw : 0 < w) (hw1 : w ≤ L) (hM : 0 ≤ M) (hMk : M * k_ ≤ L) :
    computeMax64 rnd k_ klow khigh w M = computeMax rnd k_ klow khigh w M ∧
      (0 ≤ boundFor rnd k_ klow w M ∧ boundFor rnd k_ klow w M ≤ L) ∧
      (0 ≤ boundFor rnd k_ khigh w M ∧ boundFor rnd k_ khigh w M ≤ L) := by
  have hsmall : 40 * (1 / 2 ^ 53 : ℚ) * ((M * k_ : Int) + (w : ℚ)) < 1 := by
    have h1 : ((M * k_ : Int) : ℚ) ≤ 100000000000000 := by exact_mod_cast le_trans hMk hL
    have h2 : (w : ℚ) ≤ 100000000000000 := by exact_mod_cast le_trans hw1 hL
    norm_num
    norm_num at h1
    linarith
  have hmax : max w (M * k_) ≤ L := max_le hw1 hMk
  obtain ⟨a1, a2⟩ := boundFor_range h hk hl hw hM hsmall
  obtain ⟨b1, b2⟩ := boundFor_range h hk hh hw hM hsmall
  have hMk0 : 0 ≤ M * (k_ : Int) := mul_nonneg hM (Int.natCast_nonneg _)
  have e1 : ∀ ks : Nat, 0 ≤ boundFor rnd k_ ks w M → boundFor rnd k_ ks w M ≤ L →
      boundFor64 rnd k_ ks w M = .ok (boundFor rnd k_ ks w M) := by
    intro ks c1 c2
    unfold boundFor64
    rw [long_small hMk0 hL hMk, ok_bind]
    exact long_small c1 hL c2
  refine ⟨?_, ⟨a1, le_trans a2 hmax⟩, ⟨b1, le_trans b2 hmax⟩⟩
  unfold computeMax64 computeMax
  rw [if_neg (by omega), if_neg (by omega), e1 klow a1 (le_trans a2 hmax), e1 khigh b1 (le_trans b2 hmax)]
  rfl

theorem rangeWeight_between {H : Hypergraph} (hw : WeightsNonneg H) (s e : Nat) (p : Int) :
    0 ≤ rangeWeight H s e p ∧ rangeWeight H s e p ≤ (H.vertices.map (·.weight)).sum := by
  have hmem : ∀ v ∈ slice H.vertices s e, 0 ≤ v.weight := fun v hv =>
    hw v (((List.take_sublist _ _).trans (List.drop_sublist _ _)).subset hv)
  refine ⟨?_, le_trans ?_ (slice_sum_le hw s e)⟩
  · unfold rangeWeight
    apply List.sum_nonneg
    intro x hx
    obtain ⟨v, hv, rfl⟩ := List.mem_map.1 hx
    exact hmem v (List.mem_filter.1 hv).1
  · unfold rangeWeight
    generalize slice H.vertices s e = l at hmem ⊢
    induction l with
    | nil => simp
    | cons v l ih =>
      have h1 := ih fun v hv => hmem v (List.mem_cons_of_mem _ hv)
      have h2 := hmem v (List.mem_cons_self ..)
      rw [List.filter_cons]
      split
      · simp only [List.map_cons, List.sum_cons]; omega
      · simp only [List.map_cons, List.sum_cons]; omega

/-- Two bisections agree on fit hypergraphs of total weight at most `L`, for bounds up to that number. -/
def AgreeSmall (L : Int) (A B : Bisector) (N f : Nat) : Prop :=
  ∀ H, Fit N f H → (H.vertices.map (·.weight)).sum ≤ L → ∀ s e, s ≤ e → e ≤ H.vertices.length →
    ∀ labels : Interval, labels.low ≠ labels.high → ∀ max0 max1 : Int, 0 ≤ max0 ∧ max0 ≤ L →
    0 ≤ max1 ∧ max1 ≤ L → ∀ rng, A H max0 max1 s e labels rng = B H max0 max1 s e labels rng

/-- One iteration in 64 bits. -/
theorem splitStep64_eq {L : Int} (hL : L ≤ 100000000000000) {P : RecEnv} (hr : RoundsWithin (1 / 2 ^ 53) P.rnd) {B : Bisector} {N f : Nat}
    (hB : AgreeSmall L B P.bis N f) {M : Int} (hM : 0 ≤ M) {cur : WorkItem} {s : RecState} (hfit : Fit N f s.H)
    (hT : (s.H.vertices.map (·.weight)).sum ≤ L) (hlh : cur.low < cur.high)
    (hMk : M * (cur.high - cur.low + 1) ≤ L) (hw0 : 0 ≤ cur.weight) (hw1 : cur.weight ≤ L)
    (hrg : cur.weight ≠ 0 → 0 ≤ cur.start ∧ cur.start ≤ cur.fin ∧ cur.fin ≤ s.H.vertices.length) :
    splitStep64 { P with bis := B } M cur s = splitStep P M cur s := by
  unfold splitStep64 splitStep
  by_cases hz : cur.weight = 0
  · unfold computeMax64 computeMax
    simp only [hz, if_true]
    rfl
  · have hk : ((cur.high - cur.low + 1).toNat : Int) = cur.high - cur.low + 1 := by omega
    obtain ⟨k_, hk_⟩ : ∃ k_, k_ = (cur.high - cur.low + 1).toNat := ⟨_, rfl⟩
    rw [← hk_] at hk ⊢
    obtain ⟨h1, h2, h3⟩ := computeMax64_eq hL hr (k_ := k_) (klow := k_ / 2) (khigh := k_ - k_ / 2) (w := cur.weight)
      (M := M) (by omega) (by omega) (by omega) (by omega) hw1 hM (by rw [hk]; exact hMk)
    obtain ⟨g1, g2, g3⟩ := hrg hz
    dsimp only
    rw [h1]
    unfold computeMax
    rw [if_neg hz, ok_bind, ok_bind]
    dsimp only
    unfold bisectRange
    rw [if_pos ⟨g1, g2⟩, if_pos ⟨g1, g2⟩]
    rw [hB s.H hfit hT _ _ (by omega) (by omega) ⟨cur.low, cur.high⟩ (by dsimp only; omega) _ _ h2 h3]
    rfl

/-- The loops in 64 bits. -/
theorem recLoop64_eq {L : Int} (hL : L ≤ 100000000000000) {P : RecEnv} (hr : RoundsWithin (1 / 2 ^ 53) P.rnd) {B : Bisector} {N f k : Nat} {H0 : Hypergraph}
    (hbis : BisectsWell P.bis N f) (hB : AgreeSmall L B P.bis N f) (hd : Fair P.d1) {M : Int} (hM : 0 ≤ M)
    (hMk : M * k ≤ L) (hT : (H0.vertices.map (·.weight)).sum ≤ L) :
    ∀ (fuel : Nat) (cur : WorkItem) (s : RecState), RecInv P N f k H0 cur s →
      (∀ j ∈ cur :: s.jobs, 0 ≤ j.weight ∧ j.weight ≤ L) →
      recLoop64 { P with bis := B } M fuel cur s = recLoop P M fuel cur s := by
  intro fuel
  induction fuel with
  | zero => intro cur s _ _; rfl
  | succ fuel ih =>
    intro cur s hI hj
    unfold recLoop64 recLoop
    by_cases hlh : cur.low < cur.high
    · rw [if_pos (by omega), if_pos (by omega)]
      have hsum : (s.H.vertices.map (·.weight)).sum = (H0.vertices.map (·.weight)).sum := by
        have := (hI.verts.map Prod.snd).sum_eq
        simpa [List.map_map, Function.comp_def] using this
      have hl := hI.labels cur (List.mem_cons_self ..)
      have hcw := hj cur (List.mem_cons_self ..)
      have hrg := fun hw => hI.ranges cur (List.mem_cons_self ..) hw hlh
      have hMk' : M * (cur.high - cur.low + 1) ≤ L := by
        refine le_trans (mul_le_mul_of_nonneg_left ?_ hM) hMk
        omega
      rw [splitStep64_eq hL hr hB hM hI.fit (by rw [hsum]; exact hT) hlh hMk' hcw.1 hcw.2 hrg]
      rcases splitStep_spec hbis hd M hI.fit hI.nonempty hlh hrg with ⟨-, h⟩ |
        ⟨-, cur', s', h, S, E, H1, H2, w0, w1, a1, a2, a3, a4, a5⟩
      · rw [h]; rfl
      · obtain ⟨hI', -⟩ := hI.step hlh a1 a2 a3 a4 a5
        rw [h, ok_bind, ok_bind]
        have hF := relabels_fit a5.relabels hI.fit
        have hnn : WeightsNonneg H1 := fun v hv => le_of_lt (hF.pos v hv)
        have hs1 : (H1.vertices.map (·.weight)).sum = (s.H.vertices.map (·.weight)).sum := by
          rw [forall2_map_eq (relabels_forall2 a5.relabels) (fun a b hab => hab.2.2)]
        have r0 := rangeWeight_between hnn S E cur.low
        have r1 := rangeWeight_between hnn S E cur.high
        rw [← a5.w0_eq, hs1, hsum] at r0
        rw [← a5.w1_eq, hs1, hsum] at r1
        refine ih cur' s' hI' ?_
        intro j hjm
        rcases List.mem_cons.1 hjm with rfl | hjm
        · rw [a5.cur_weight]; omega
        · rcases a5.reorder with ⟨-, b, -⟩ | ⟨-, b, -⟩
          · rw [b] at hjm
            rcases List.mem_cons.1 hjm with rfl | hjm
            · dsimp only; omega
            · exact hj j (List.mem_cons_of_mem _ hjm)
          · rw [b] at hjm
            exact hj j (List.mem_cons_of_mem _ hjm)
    · rw [if_neg (by omega), if_neg (by omega)]
      cases hjs : s.jobs with
      | nil => rfl
      | cons j js =>
        obtain ⟨hI', -⟩ := hI.pop hlh hjs
        refine ih j _ hI' ?_
        intro j' hj'
        exact hj j' (by rw [hjs]; exact List.mem_cons_of_mem _ hj')

/-- `maxweight` in 64 bits. -/
theorem maxWeight64_eq {L : Int} (hL : L ≤ 100000000000000) (h : RoundsWithin (1 / 2 ^ 53) rnd) {eps : ℚ} (heps : 0 ≤ eps) {W : Int} (hW : 0 ≤ W) {k : Nat}
    (hk : 0 < k) (hsmall : (1 + eps) * W ≤ L - 1) :
    maxWeight64 rnd eps W k = .ok (maxWeight rnd eps W k) ∧ 0 ≤ maxWeight rnd eps W k ∧
      maxWeight rnd eps W k * k ≤ L := by
  obtain ⟨h1, h2⟩ := maxWeight_le h heps hW hk
  have hkq : (0 : ℚ) < k := by exact_mod_cast hk
  have hMk : maxWeight rnd eps W k * (k : Int) ≤ L := by
    have h3 : (maxWeight rnd eps W k : ℚ) * k ≤ (1 + 8 * (1 / 2 ^ 53)) * ((1 + eps) * W) := by
      rw [mul_div_assoc', le_div_iff₀ hkq] at h2
      exact h2
    have h4 : (1 + 8 * (1 / 2 ^ 53) : ℚ) * ((1 + eps) * W) ≤ (1 + 8 * (1 / 2 ^ 53)) * ((L : ℚ) - 1) := by
      apply mul_le_mul_of_nonneg_left hsmall
      norm_num
    have h5 : (1 + 8 * (1 / 2 ^ 53) : ℚ) * ((L : ℚ) - 1) ≤ L := by
      have : (L : ℚ) ≤ 100000000000000 := by exact_mod_cast hL
      norm_num
      linarith
    have h6 : (maxWeight rnd eps W k : ℚ) * k ≤ L := le_trans h3 (le_trans h4 h5)
    exact_mod_cast h6
  refine ⟨?_, h1, hMk⟩
  apply long_small h1 hL
  have : maxWeight rnd eps W k * 1 ≤ maxWeight rnd eps W k * (k : Int) := by
    apply mul_le_mul_of_nonneg_left _ h1
    omega
  show maxWeight rnd eps W k ≤ L
  omega

end PMondriaan
