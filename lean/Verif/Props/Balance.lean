import Verif.Proofs.RecRandom
import Verif.Props.RecBisect

/-
C82: with enough slack the recursion with random bisections always ends, and every part is within
the bound.
-/

namespace PMondriaan

open Spec

/-- Random bisection stays within bounds that leave room for one more vertex. -/
theorem bisectRandom_balances (N f : Nat) (om : Int) : Balances bisectRandom N f om om := by
  intro H hf hmax s e h1 h2 labels hl max0 max1 hm0 hm1 hsum rng r hr
  obtain ⟨r', h3, h4⟩ := C35_balance h1 h2 labels hl rng hm0 hm1 (W := om) (fun v hv => by
    obtain ⟨i, -, -, hi⟩ := mem_slice.1 hv
    have hv' : v ∈ H.vertices := List.mem_iff_getElem?.2 ⟨i, hi⟩
    exact ⟨(hf.pos v hv').le, hmax v hv'⟩) hsum
  rw [hr] at h3
  rw [Except.ok.inj h3]
  exact h4

/-- C82 under rounding with relative error `u`, for every bisection function that balances. -/
theorem C82_rounded {P : RecEnv} {N f k : Nat} {om room : Int} (hbis : BisectsWell P.bis N f)
    (hbal : Balances P.bis N f om room) (hd1 : Fair P.d1) (hd2 : Fair P.d2) (hk : 2 ≤ k) {H : Hypergraph}
    (hf : Fit N f H) (hmax : ∀ v ∈ H.vertices, v.weight ≤ om) (hom : 0 ≤ room)
    (hne : P.cutMetric = true → ∀ n ∈ H.nets, n.vertices ≠ []) {epsilon : ℚ} (heps : 0 ≤ epsilon)
    (rng : Rng) {u : ℚ} (hr : RoundsWithin u P.rnd) {M : Int}
    (hMeq : M = maxWeight P.rnd epsilon H.totalWeight k)
    (hu : 40 * u * ((M : ℚ) + H.totalWeight) < 1)
    (hroom : needed room (20 * u * (M * k)) (Nat.clog 2 k) ≤ M - H.totalWeight / k)
    (htight : (M - H.totalWeight / k : ℚ) * (Nat.clog 2 k * (Nat.clog 2 k + 1) / 2) +
      20 * u * (M * k) * (Nat.clog 2 k : ℚ) ^ 3 < M) :
    ∃ s, recursiveBisect P H k epsilon rng = .ok s ∧ Partitioned k H s.H ∧
      ∀ p : Int, 0 ≤ p → p < k → Spec.partWeight s.H p ≤ M := by
  have hW0 : 0 ≤ H.totalWeight := by
    rw [totalWeight_eq]
    refine List.sum_nonneg ?_
    intro x hx
    obtain ⟨v, hv, rfl⟩ := List.mem_map.1 hx
    exact (hf.pos v hv).le
  obtain ⟨m1, -⟩ := maxWeight_le hr heps hW0 (by omega : 0 < k)
  rw [← hMeq] at m1
  obtain ⟨hI, hw⟩ := recInv_first (P := P) hk hf hne rng
  have homq : (0 : ℚ) ≤ room := by exact_mod_cast hom
  have hη0 : 0 ≤ 20 * u * ((M : ℚ) * k) := by
    have := hr.nonneg
    have : (0 : ℚ) ≤ M := by exact_mod_cast m1
    positivity
  have hC := htight
  have hJ0 : SlackInv M room (20 * u * (M * k)) ((M - H.totalWeight / k : ℚ) *
      (Nat.clog 2 k * (Nat.clog 2 k + 1) / 2) + 20 * u * (M * k) * (Nat.clog 2 k : ℚ) ^ 3)
      (firstItem H k) (firstState H rng) := by
    refine ⟨⟨?_, ?_⟩, ?_, ?_⟩
    · simp [firstState]
    · intro j hj _
      simp only [firstState, List.mem_singleton] at hj
      rw [hj]
      simp only [firstItem, firstState, sw, slice]
      rw [totalWeight_eq]
      simp
    · intro c hc; simp [firstState] at hc
    · intro j hj _
      simp only [firstState, List.mem_singleton] at hj
      rw [hj]
      simp only [firstItem]
      rw [show ((k : Int) - 1 - 0 + 1).toNat = k by omega]
      exact ⟨hroom, le_refl _⟩
  obtain ⟨s1, h1, cur1, hJ1, -⟩ := recLoop_total hbis hd1 M
    (SlackInv M room (20 * u * (M * k)) ((M - H.totalWeight / k : ℚ) *
      (Nat.clog 2 k * (Nat.clog 2 k + 1) / 2) + 20 * u * (M * k) * (Nat.clog 2 k : ℚ) ^ 3))
    (fun cur s hJ hlh => by
      have := (hJ.slack cur (List.mem_cons_self ..) hlh).pos (by omega) homq hη0 hC
      omega)
    (fun cur s cur' s' S E H1 H2 w0 w1 hJ hI' hlh a1 a2 a3 a4 a5 =>
      SlackInv.step hbal hr m1 hom hC hmax hI' hJ hlh a1 a2 a3 a4 a5)
    (fun cur s j js hJ hlh hj => by
      have hJ' := hJ
      refine ⟨⟨?_, ?_⟩, hJ.calls, ?_⟩
      · have := hJ.true.order
        rw [hj] at this
        exact (List.pairwise_cons.1 this).2
      · intro j' hj'
        exact hJ.true.weight j' (by rw [hj]; exact List.mem_cons_of_mem _ hj')
      · intro j' hj'
        exact hJ.slack j' (by rw [hj]; exact List.mem_cons_of_mem _ hj'))
    (2 * k) (firstItem H k) (firstState H rng) hJ0 hI hw
  have h1' := h1
  rw [hMeq] at h1'
  obtain ⟨s, h2, h3⟩ := recursiveBisect_of_loop hbis hd1 hd2 hk hf hne epsilon rng h1'
  refine ⟨s, h2, h3, fun p hp0 hpk => ?_⟩
  rw [hMeq]
  refine (C37_rounded hbis hd1 hd2 hk hf hne heps rng hr (by rw [← hMeq]; exact hu) h2 ?_ p hp0 hpk).1
  rcases recLoop_outcome hbis hd1 (maxWeight P.rnd epsilon H.totalWeight k) (2 * k) _ _ hI hw with
    h4 | ⟨s2, h4, hD⟩
  · rw [h1'] at h4; cases h4
  · rw [h1'] at h4
    obtain rfl := Except.ok.inj h4
    obtain ⟨s', r1, r2, r3, r4, r5⟩ := restoreCut_ok hd1 hd2 hf.wf hne hD
    have hs : s = s' := by
      unfold recursiveBisect at h2
      have h1'' := h1'
      simp only [firstItem, firstState] at h1''
      simp only [h1'', ok_bind] at h2
      rw [r1] at h2
      exact (Except.ok.inj h2).symm
    rw [hs, r4]
    exact hJ1.calls

/-- The recursion in exact arithmetic, for every bisection function that balances. `L` is the logarithm of `k`, rounded
up, and `M` the bound `maxweight`. -/
theorem balanced_exact {P : RecEnv} {N f k L : Nat} {om room M : Int} (hbis : BisectsWell P.bis N f)
    (hbal : Balances P.bis N f om room)
    (hd1 : Fair P.d1) (hd2 : Fair P.d2) (hk : 2 ≤ k) {H : Hypergraph}
    (hf : Fit N f H) (hmax : ∀ v ∈ H.vertices, v.weight ≤ om) (hom : 0 ≤ room)
    (hne : P.cutMetric = true → ∀ n ∈ H.nets, n.vertices ≠ []) {epsilon : ℚ} (heps : 0 ≤ epsilon)
    (rng : Rng) (hr : P.rnd = id) (hL : L = Nat.clog 2 k) (hM : M = ⌊(1 + epsilon) * H.totalWeight / k⌋)
    (hroom : k * room * max 1 (2 * ((L : Int) - 1)) ≤ 2 * (k * M - H.totalWeight))
    (htight : (k * M - H.totalWeight) * (L * (L + 1)) < 2 * k * M) :
    ∃ s, recursiveBisect P H k epsilon rng = .ok s ∧ Partitioned k H s.H ∧
      ∀ p : Int, 0 ≤ p → p < k → Spec.partWeight s.H p ≤ M := by
  have hW0 : 0 ≤ H.totalWeight := by
    rw [totalWeight_eq]
    refine List.sum_nonneg ?_
    intro x hx
    obtain ⟨v, hv, rfl⟩ := List.mem_map.1 hx
    exact (hf.pos v hv).le
  have hWq : (0 : ℚ) ≤ H.totalWeight := by exact_mod_cast hW0
  have hk0 : (0 : ℚ) < k := by exact_mod_cast (by omega : 0 < k)
  have hMeq : M = maxWeight P.rnd epsilon H.totalWeight k := by
    unfold maxWeight
    rw [hr, hM]
    simp only [id]
    unfold truncQ
    rw [if_pos (by positivity)]
  have hL1 : 1 ≤ L := by rw [hL]; exact clog_pos' hk
  have e1 : (M : ℚ) - H.totalWeight / k = ((k * M - H.totalWeight : Int) : ℚ) / k := by
    push_cast; field_simp
  refine C82_rounded (u := 0) hbis hbal hd1 hd2 hk hf hmax hom hne heps rng
    (by rw [hr]; exact exact_rounding) hMeq (by norm_num) ?_ ?_
  · rw [← hL, e1, le_div_iff₀ hk0]
    have h1 : ((k * room * max 1 (2 * ((L : Int) - 1)) : Int) : ℚ) ≤ ((2 * (k * M - H.totalWeight) : Int) : ℚ) := by
      exact_mod_cast hroom
    unfold needed
    by_cases hl : L ≤ 1
    · rw [if_pos hl]
      rw [max_eq_left (by omega)] at h1
      push_cast at h1 ⊢
      linarith
    · rw [if_neg hl]
      rw [max_eq_right (by omega)] at h1
      push_cast at h1 ⊢
      linarith
  · rw [← hL, e1]
    have h1 : (((k * M - H.totalWeight) * (L * (L + 1)) : Int) : ℚ) < ((2 * k * M : Int) : ℚ) := by
      exact_mod_cast htight
    push_cast at h1 ⊢
    have h2 : ((k : ℚ) * M - H.totalWeight) / k * (L * (L + 1) / 2) =
        ((k : ℚ) * M - H.totalWeight) * (L * (L + 1)) / (2 * k) := by
      field_simp
    rw [h2]
    have h3 : ((k : ℚ) * M - H.totalWeight) * (L * (L + 1)) / (2 * k) < M := by
      rw [div_lt_iff₀ (by positivity)]
      linarith
    linarith

/-- The same in `double` arithmetic with 53 bits. -/
theorem balanced_double {P : RecEnv} {N f k L : Nat} {om room M : Int} (hbis : BisectsWell P.bis N f)
    (hbal : Balances P.bis N f om room)
    (hd1 : Fair P.d1) (hd2 : Fair P.d2) (hk : 2 ≤ k) {H : Hypergraph}
    (hf : Fit N f H) (hmax : ∀ v ∈ H.vertices, v.weight ≤ om) (hom : 0 ≤ room)
    (hne : P.cutMetric = true → ∀ n ∈ H.nets, n.vertices ≠ []) {epsilon : ℚ} (heps : 0 ≤ epsilon)
    (rng : Rng) (hr : RoundsWithin (1 / 2 ^ 53) P.rnd) (hL : L = Nat.clog 2 k)
    (hM : M = maxWeight P.rnd epsilon H.totalWeight k) (hsize : k * M * L ^ 3 ≤ 2 ^ 46)
    (hroom : k * (room + 1) * L ≤ k * M - H.totalWeight)
    (htight : (k * M - H.totalWeight) * (L * (L + 1)) ≤ 2 * k * (M - 1)) :
    ∃ s, recursiveBisect P H k epsilon rng = .ok s ∧ Partitioned k H s.H ∧
      ∀ p : Int, 0 ≤ p → p < k → Spec.partWeight s.H p ≤ M := by
  have hW0 : 0 ≤ H.totalWeight := by
    rw [totalWeight_eq]
    refine List.sum_nonneg ?_
    intro x hx
    obtain ⟨v, hv, rfl⟩ := List.mem_map.1 hx
    exact (hf.pos v hv).le
  obtain ⟨m1, -⟩ := maxWeight_le hr heps hW0 (by omega : 0 < k)
  rw [← hM] at m1
  have hMq : (0 : ℚ) ≤ M := by exact_mod_cast m1
  have hWq : (0 : ℚ) ≤ H.totalWeight := by exact_mod_cast hW0
  have hk0 : (0 : ℚ) < k := by exact_mod_cast (by omega : 0 < k)
  have hk2 : (2 : ℚ) ≤ k := by exact_mod_cast hk
  have homq : (0 : ℚ) ≤ room := by exact_mod_cast hom
  have hL1 : 1 ≤ L := by rw [hL]; exact clog_pos' hk
  have hLq : (1 : ℚ) ≤ L := by exact_mod_cast hL1
  have e1 : (M : ℚ) - H.totalWeight / k = ((k * M - H.totalWeight : Int) : ℚ) / k := by
    push_cast; field_simp
  have hsq : (k : ℚ) * M * L ^ 3 ≤ 2 ^ 46 := by exact_mod_cast hsize
  have hrq : (k : ℚ) * (room + 1) * L ≤ k * M - H.totalWeight := by exact_mod_cast hroom
  have htq : ((k : ℚ) * M - H.totalWeight) * (L * (L + 1)) ≤ 2 * k * (M - 1) := by exact_mod_cast htight
  have hL3 : (L : ℚ) ≤ (L : ℚ) ^ 3 := le_self_pow₀ hLq (by norm_num)
  have hkM : 0 ≤ (k : ℚ) * M := by positivity
  have hη3 : 20 * (1 / 2 ^ 53 : ℚ) * (M * k) * L ^ 3 ≤ 1 / 4 := by
    have : 20 * (1 / 2 ^ 53 : ℚ) * (M * k) * L ^ 3 = 20 / 2 ^ 53 * (k * M * L ^ 3) := by ring
    rw [this]
    calc 20 / 2 ^ 53 * (k * M * L ^ 3 : ℚ) ≤ 20 / 2 ^ 53 * 2 ^ 46 := by gcongr
      _ ≤ 1 / 4 := by norm_num
  have hη1 : 20 * (1 / 2 ^ 53 : ℚ) * (M * k) * L ≤ 1 / 4 := by
    refine le_trans ?_ hη3
    gcongr
  have hη0 : 20 * (1 / 2 ^ 53 : ℚ) * (M * k) ≤ 1 / 4 := by
    refine le_trans ?_ hη1
    exact le_mul_of_one_le_right (by positivity) hLq
  have hkM46 : (k : ℚ) * M ≤ 2 ^ 46 := by
    refine le_trans ?_ hsq
    exact le_mul_of_one_le_right hkM (one_le_pow₀ hLq)
  refine C82_rounded hbis hbal hd1 hd2 hk hf hmax hom hne heps rng hr hM ?_ ?_ ?_
  · have h1 : (M : ℚ) + H.totalWeight ≤ 2 * (k * M) := by
      have h2 : 0 ≤ (k : ℚ) * (room + 1) * L := by positivity
      have h3 : (M : ℚ) ≤ k * M := by nlinarith
      linarith
    calc 40 * (1 / 2 ^ 53 : ℚ) * ((M : ℚ) + H.totalWeight)
        ≤ 40 * (1 / 2 ^ 53 : ℚ) * (2 * 2 ^ 46) := by gcongr; linarith
      _ < 1 := by norm_num
  · rw [← hL, e1, le_div_iff₀ hk0]
    push_cast
    refine le_trans ?_ hrq
    have h1 : needed room (20 * (1 / 2 ^ 53 : ℚ) * (M * k)) L ≤ (room + 1) * L := by
      unfold needed
      by_cases hl : L ≤ 1
      · rw [if_pos hl]
        have : L = 1 := by omega
        rw [this]; push_cast
        linarith
      · rw [if_neg hl]
        have h2 : (room : ℚ) + 2 * (20 * (1 / 2 ^ 53 : ℚ) * (M * k)) * L ≤ room + 1 := by linarith
        have h3 : ((L : ℚ) - 1) * (room + 2 * (20 * (1 / 2 ^ 53 : ℚ) * (M * k)) * L) ≤ (L - 1) * (room + 1) :=
          mul_le_mul_of_nonneg_left h2 (by linarith)
        refine le_trans h3 ?_
        nlinarith
    calc needed room (20 * (1 / 2 ^ 53 : ℚ) * (M * k)) L * k ≤ (room + 1) * L * k := by gcongr
      _ = k * (room + 1) * L := by ring
  · rw [← hL, e1]
    push_cast
    have h2 : ((k : ℚ) * M - H.totalWeight) / k * (L * (L + 1) / 2) =
        ((k : ℚ) * M - H.totalWeight) * (L * (L + 1)) / (2 * k) := by
      field_simp
    rw [h2]
    have h3 : ((k : ℚ) * M - H.totalWeight) * (L * (L + 1)) / (2 * k) ≤ M - 1 := by
      rw [div_le_iff₀ (by positivity)]
      linarith
    linarith

/-- C82 in exact arithmetic. `L` is the logarithm of `k`, rounded up, and `M` the bound `maxweight`. If the
slack `k M - W` is at least `k om max(1, 2 (L - 1)) / 2`, where `om` bounds the weights of the vertices, and
small enough compared with `M`, then the recursion ends for every random stream and every part weighs at
most `M`. -/
theorem C82_exact {P : RecEnv} {N f k L : Nat} {om M : Int} (hb : P.bis = bisectRandom)
    (hd1 : Fair P.d1) (hd2 : Fair P.d2) (hk : 2 ≤ k) {H : Hypergraph}
    (hf : Fit N f H) (hmax : ∀ v ∈ H.vertices, v.weight ≤ om) (hom : 0 ≤ om)
    (hne : P.cutMetric = true → ∀ n ∈ H.nets, n.vertices ≠ []) {epsilon : ℚ} (heps : 0 ≤ epsilon)
    (rng : Rng) (hr : P.rnd = id) (hL : L = Nat.clog 2 k) (hM : M = ⌊(1 + epsilon) * H.totalWeight / k⌋)
    (hroom : k * om * max 1 (2 * ((L : Int) - 1)) ≤ 2 * (k * M - H.totalWeight))
    (htight : (k * M - H.totalWeight) * (L * (L + 1)) < 2 * k * M) :
    ∃ s, recursiveBisect P H k epsilon rng = .ok s ∧ Partitioned k H s.H ∧
      ∀ p : Int, 0 ≤ p → p < k → Spec.partWeight s.H p ≤ M :=
  balanced_exact (by rw [hb]; exact randomEnv_well id true N f) (by rw [hb]; exact bisectRandom_balances N f om)
    hd1 hd2 hk hf hmax hom hne heps rng hr hL hM hroom htight

/-- C82 in `double` arithmetic with 53 bits. -/
theorem C82_double {P : RecEnv} {N f k L : Nat} {om M : Int} (hb : P.bis = bisectRandom)
    (hd1 : Fair P.d1) (hd2 : Fair P.d2) (hk : 2 ≤ k) {H : Hypergraph}
    (hf : Fit N f H) (hmax : ∀ v ∈ H.vertices, v.weight ≤ om) (hom : 0 ≤ om)
    (hne : P.cutMetric = true → ∀ n ∈ H.nets, n.vertices ≠ []) {epsilon : ℚ} (heps : 0 ≤ epsilon)
    (rng : Rng) (hr : RoundsWithin (1 / 2 ^ 53) P.rnd) (hL : L = Nat.clog 2 k)
    (hM : M = maxWeight P.rnd epsilon H.totalWeight k) (hsize : k * M * L ^ 3 ≤ 2 ^ 46)
    (hroom : k * (om + 1) * L ≤ k * M - H.totalWeight)
    (htight : (k * M - H.totalWeight) * (L * (L + 1)) ≤ 2 * k * (M - 1)) :
    ∃ s, recursiveBisect P H k epsilon rng = .ok s ∧ Partitioned k H s.H ∧
      ∀ p : Int, 0 ≤ p → p < k → Spec.partWeight s.H p ≤ M :=
  balanced_double (by rw [hb]; exact randomEnv_well id true N f) (by rw [hb]; exact bisectRandom_balances N f om)
    hd1 hd2 hk hf hmax hom hne heps rng hr hL hM hsize hroom htight

/-- Sixteen vertices of weight one, in four nets. -/
def sixteen : Hypergraph :=
  Hypergraph.create 16 4 ((List.range 16).map (fun i => { id := i, nets := [i / 4], weight := 1, part := -1 }))
    ((List.range 4).map (fun e => { id := e, vertices := (List.range 4).map (fun j => 4 * e + j), cost := 1, globalSize := 4 }))

theorem sixteen_fit : Fit 4 17 sixteen :=
  ⟨WF_create (by decide) (by decide) (by decide) (by decide) (by decide) (by decide),
    by decide, by decide, by decide, by decide⟩

/-- Four parts with ε = 1/4: for every random stream every part has at most five of the sixteen vertices. -/
example (rng : Rng) (c : Bool) : ∃ s, recursiveBisect (randomEnv id c) sixteen 4 (1 / 4) rng = .ok s ∧
    Partitioned 4 sixteen s.H ∧ ∀ p : Int, 0 ≤ p → p < 4 → Spec.partWeight s.H p ≤ 5 :=
  C82_exact (P := randomEnv id c) (L := 2) (om := 1) (M := 5) rfl (fun _ l => List.Perm.refl l) (fun _ l => List.Perm.refl l)
    (by decide) sixteen_fit (by decide) (by decide) (fun _ => by decide) (by norm_num) rng rfl (by decide)
    (by decide +kernel) (by decide +kernel) (by decide +kernel)

/-- Thirty-six vertices of weight one, in nine nets. -/
def thirtysix : Hypergraph :=
  Hypergraph.create 36 9 ((List.range 36).map (fun i => { id := i, nets := [i / 4], weight := 1, part := -1 }))
    ((List.range 9).map (fun e => { id := e, vertices := (List.range 4).map (fun j => 4 * e + j), cost := 1, globalSize := 4 }))

theorem thirtysix_fit : Fit 9 37 thirtysix :=
  ⟨WF_create (by decide +kernel) (by decide +kernel) (by decide +kernel) (by decide +kernel) (by decide +kernel)
    (by decide +kernel), by decide +kernel, by decide +kernel, by decide +kernel, by decide +kernel⟩

/-- Four parts with ε = 9/20 and `double` arithmetic: every part has at most thirteen of the thirty-six vertices. -/
example (rng : Rng) (c : Bool) : ∃ s, recursiveBisect (randomEnv nearest53 c) thirtysix 4 (9 / 20) rng = .ok s ∧
    Partitioned 4 thirtysix s.H ∧ ∀ p : Int, 0 ≤ p → p < 4 → Spec.partWeight s.H p ≤ 13 :=
  C82_double (P := randomEnv nearest53 c) (L := 2) (om := 1) (M := 13) rfl (fun _ l => List.Perm.refl l)
    (fun _ l => List.Perm.refl l) (by decide) thirtysix_fit (by decide +kernel) (by decide)
    (fun _ => by decide +kernel) (by norm_num) rng nearest53_rounds (by decide)
    (show (13 : Int) = maxWeight nearest53 (9 / 20) thirtysix.totalWeight 4 by decide +kernel) (by decide +kernel) (by decide +kernel) (by decide +kernel)

/-- Without the room a part can exceed the bound. -/
theorem C82_room_needed : ∃ (rng : Rng) (s : RecState),
    recursiveBisect (randomEnv id false) exampleH 2 0 rng = .ok s ∧ 5 < Spec.partWeight s.H 0 ∧
    exampleH.totalWeight = 10 := by
  refine ⟨fun n => n, _, rfl, ?_, ?_⟩ <;> decide +kernel

end PMondriaan
