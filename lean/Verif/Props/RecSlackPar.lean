import Verif.Proofs.RecSlackPar
import Verif.Props.RecSumPar

/-
Property C92: random bisection on several processors gives a balanced partitioning into any number of parts when there
is enough slack.
-/

namespace PMondriaan

open Spec

theorem codeBis_random_balances {F : Type} (E : List Bool → Nat → ParBisectEnv F) {opts : Options} (p0 : Nat)
    (hb : opts.bisectionRandom = true) (om : Int) (path : List Bool) : ParBalances (codeBis E opts p0 path) om := by
  intro xs hx hw labels hl max0 max1 hm0 hm1 hload rngs hr rs h
  obtain ⟨rs', h1, -, h2⟩ := C85_bisect (E path xs.length) (opts := { opts with sampleSize := opts.sampleSize / p0 }) hb hx
    hl hm0 hm1 (fun x hx' v hv => by
      obtain ⟨i, -, -, hi⟩ := mem_slice.1 hv
      have := hw x hx' v (List.mem_iff_getElem?.2 ⟨i, hi⟩)
      exact ⟨this.1.le, this.2⟩) hload hr
  unfold codeBis at h
  rw [h] at h1
  obtain rfl := Except.ok.inj h1
  exact h2

theorem startProcs_load {Hs : List Hypergraph} {rngs : List Rng} (hr : rngs.length = Hs.length) :
    ((startProcs Hs rngs).map loadOf).sum = weightOn Hs ∧
    ∀ x ∈ startProcs Hs rngs, x.H ∈ Hs ∧ loadOf x = (x.H.vertices.map (·.weight)).sum := by
  have h1 : ∀ x ∈ startProcs Hs rngs, x.H ∈ Hs ∧ loadOf x = (x.H.vertices.map (·.weight)).sum := by
    intro x hx
    obtain ⟨y, hy, rfl⟩ := List.mem_map.1 hx
    refine ⟨(List.of_mem_zip hy).1, ?_⟩
    simp [loadOf, slice]
  refine ⟨?_, h1⟩
  have e : (startProcs Hs rngs).map (·.H) = Hs := by
    unfold startProcs
    rw [List.map_map]
    have : (Hs.zip rngs).map Prod.fst = Hs := List.map_fst_zip (by omega)
    conv_rhs => rw [← this]
    rfl
  rw [List.map_congr_left fun x hx => (h1 x hx).2]
  have : (startProcs Hs rngs).map (fun x => (x.H.vertices.map (·.weight)).sum) =
      Hs.map (fun H => (H.vertices.map (·.weight)).sum) := by
    conv_rhs => rw [← e, List.map_map]
    rfl
  rw [this]
  unfold weightOn
  rw [List.map_flatMap, List.flatMap, List.sum_flatten, List.map_map]
  rfl

/-- The condition on the slack, in the form that the induction needs. -/
theorem margin_double {M R W : Int} {k L : Nat} (hk : 2 ≤ k) (hM0 : 0 ≤ M) (hL : L = Nat.clog 2 k)
    (hsize : k * M * L ^ 3 ≤ 2 ^ 46)
    (hroom : k * (R + 1) * max 1 (2 * ((L : Int) - 1)) ≤ 2 * (k * M - W))
    (htight : (k * M - W) * (L * (L + 1)) ≤ 2 * k * (M - 1)) :
    Margin M R (20 * (1 / 2 ^ 53) * (M * k)) (M - 3 / 4) k W := by
  have hMq : (0 : ℚ) ≤ M := by exact_mod_cast hM0
  have hk0 : (0 : ℚ) < k := by exact_mod_cast (by omega : 0 < k)
  have hL1 : 1 ≤ L := by rw [hL]; exact clog_pos' hk
  have hLq : (1 : ℚ) ≤ L := by exact_mod_cast hL1
  have e1 : (M : ℚ) - W / k = ((k * M - W : Int) : ℚ) / k := by
    push_cast; field_simp
  have hsq : (k : ℚ) * M * L ^ 3 ≤ 2 ^ 46 := by exact_mod_cast hsize
  have htq : ((k : ℚ) * M - W) * (L * (L + 1)) ≤ 2 * k * (M - 1) := by exact_mod_cast htight
  have hL3 : (L : ℚ) ≤ (L : ℚ) ^ 3 := le_self_pow₀ hLq (by norm_num)
  have hη3 : 20 * (1 / 2 ^ 53 : ℚ) * (M * k) * L ^ 3 ≤ 1 / 4 := by
    have : 20 * (1 / 2 ^ 53 : ℚ) * (M * k) * L ^ 3 = 20 / 2 ^ 53 * (k * M * L ^ 3) := by ring
    rw [this]
    calc 20 / 2 ^ 53 * (k * M * L ^ 3 : ℚ) ≤ 20 / 2 ^ 53 * 2 ^ 46 := by gcongr
      _ ≤ 1 / 4 := by norm_num
  have hη1 : 20 * (1 / 2 ^ 53 : ℚ) * (M * k) * L ≤ 1 / 4 := by
    refine le_trans ?_ hη3
    gcongr
  have hη0 : 20 * (1 / 2 ^ 53 : ℚ) * (M * k) ≤ 1 / 4 := by
    refine le_trans ?_ hη1
    exact le_mul_of_one_le_right (by positivity) hLq
  constructor
  · rw [← hL, e1, le_div_iff₀ hk0]
    have h1 : ((k * (R + 1) * max 1 (2 * ((L : Int) - 1)) : Int) : ℚ) ≤ ((2 * (k * M - W) : Int) : ℚ) := by
      exact_mod_cast hroom
    unfold needed
    by_cases hl : L ≤ 1
    · rw [if_pos hl]
      rw [max_eq_left (by omega)] at h1
      push_cast at h1 ⊢
      have h2 : ((R : ℚ) / 2 + 20 * (1 / 2 ^ 53) * (M * k)) * k ≤ ((R : ℚ) / 2 + 1 / 4) * k := by gcongr
      nlinarith
    · rw [if_neg hl]
      rw [max_eq_right (by omega)] at h1
      push_cast at h1 ⊢
      have h2 : (R : ℚ) + 2 * (20 * (1 / 2 ^ 53 : ℚ) * (M * k)) * L ≤ R + 1 := by linarith
      have h3 : ((L : ℚ) - 1) * (R + 2 * (20 * (1 / 2 ^ 53 : ℚ) * (M * k)) * L) ≤ (L - 1) * (R + 1) :=
        mul_le_mul_of_nonneg_left h2 (by linarith)
      have h4 := mul_le_mul_of_nonneg_right h3 hk0.le
      linarith
  · rw [← hL, e1]
    push_cast
    have h2 : ((k : ℚ) * M - W) / k * (L * (L + 1) / 2) =
        ((k : ℚ) * M - W) * (L * (L + 1)) / (2 * k) := by
      field_simp
    rw [h2]
    have h3 : ((k : ℚ) * M - W) * (L * (L + 1)) / (2 * k) ≤ M - 1 := by
      rw [div_le_iff₀ (by positivity)]
      linarith
    linarith

/-- C92 for all bisection functions that balance: the recursion with the lambda metric on at least two processors ends
for all random streams, nothing is lost, all labels are in `[0, k)` and every part weighs, over all processors, at most
`maxweight`. Besides, every group with at least four labels gives processors to both sides. -/
theorem C92_rounds {P : ParRecEnv} {N T k L : Nat} (hP : ParRecEnvOk P N T (fun _ => False)) (hN : N < 2147483648)
    {om : Int} (hpar : ∀ path, ParBalances (P.bis path) om) (hal : ∀ path, Balances (P.alone path) N T om om)
    (hk : 2 ≤ k) {Hs : List Hypergraph} (h2 : 2 ≤ Hs.length) (hD : Distributed N Hs)
    (hpos : ∀ H ∈ Hs, ∀ v ∈ H.vertices, 0 < v.weight ∧ v.weight ≤ om) (hom : 1 ≤ om)
    (hT : (Hs.flatMap (·.vertices)).length < T) (hp : Hs.length ≤ 2 ^ 50) {epsilon : ℚ} (heps : 0 ≤ epsilon)
    {eta : ℚ} (heta : 0 ≤ eta) (heta1 : eta ≤ 1) {rngs : List Rng} (hr : rngs.length = Hs.length) {W M R : Int}
    (hW : W = ((Hs.flatMap (·.vertices)).map (·.weight)).sum) (hM : M = maxWeight P.rnd epsilon W k)
    (hL : L = Nat.clog 2 k) (hsize : k * M * L ^ 3 ≤ 2 ^ 46)
    (hR : 2 * eta * M + 2 * Hs.length + (Hs.length : ℚ) ^ 2 * om ≤ R)
    (hroom : k * (R + 1) * max 1 (2 * ((L : Int) - 1)) ≤ 2 * (k * M - W))
    (htight : (k * M - W) * (L * (L + 1)) ≤ 2 * k * (M - 1))
    (hload : ∀ H ∈ Hs, 2 * Hs.length * ((H.vertices.map (·.weight)).sum + om) ≤ 2 * W + k * R) :
    ∃ r, recursiveBisectPar P k epsilon eta Hs rngs = .ok r ∧ Kept N Hs r.Hs ∧
      (∀ H ∈ r.Hs, ∀ v ∈ H.vertices, 0 ≤ v.part ∧ v.part < k) ∧
      (∀ q : Int, 0 ≤ q → q < k → (r.Hs.map (fun H => partWeight H q)).sum ≤ M) ∧
      ∀ c ∈ r.splits, (3 ≤ c.high - c.low → 0 < c.plow) ∧ (2 ≤ c.high - c.low → c.plow < c.p) := by
  have hpos' : ∀ H ∈ Hs, ∀ v ∈ H.vertices, 0 < v.weight := fun H hH v hv => (hpos H hH v hv).1
  have hW0 : 0 ≤ W := by rw [hW]; exact weightOn_nonneg hpos'
  have hWw : weightOn Hs = W := hW.symm
  have hne : Hs ≠ [] := by rintro rfl; simp at h2
  obtain ⟨m1, -⟩ := maxWeight_le hP.rounds heps hW0 (by omega : 0 < k)
  rw [← hM] at m1
  have hL1 : 1 ≤ L := by rw [hL]; exact clog_pos' hk
  have hkM : (k : Int) * M ≤ 2 ^ 46 := by
    refine le_trans ?_ hsize
    exact le_mul_of_one_le_right (by positivity) (one_le_pow₀ (by exact_mod_cast hL1))
  have hMq : (0 : ℚ) ≤ M := by exact_mod_cast m1
  have hR1 : 0 ≤ R := by
    have h3 : (0 : ℚ) ≤ R := by
      refine le_trans ?_ hR
      have : (0 : ℚ) ≤ om := by exact_mod_cast (by omega : 0 ≤ om)
      positivity
    exact_mod_cast h3
  have hWM : W ≤ k * M := by
    have h3 : 0 ≤ (k : Int) * (R + 1) * max 1 (2 * ((L : Int) - 1)) := by positivity
    omega
  have hW53 : weightOn Hs < 2 ^ 53 := by omega
  obtain ⟨e, hI⟩ := start_inv hk hD hpos' hT hW53 hp hr
  obtain ⟨l1, l2⟩ := startProcs_load hr
  have hcnt : (⟨0, (k : Int) - 1⟩ : Interval).count = k := by
    unfold Interval.count Interval.length
    dsimp only
    omega
  have hlen : (startProcs Hs rngs).length = Hs.length := by
    have := congrArg List.length e
    rw [List.length_map] at this
    exact this
  obtain ⟨r, h, hs, hc⟩ := recPar_fits (C := (M : ℚ) - 3 / 4) hP hN heta heta1 m1 hom (by linarith) hpar hal h2 hR
    (by rw [mul_comm]; omega) (k + 1) [] ⟨0, (k : Int) - 1⟩ W (startProcs Hs rngs) hI (by omega)
    (by
      intro h0
      have := congrArg List.length h0
      rw [hlen, List.length_nil] at this
      omega)
    (by omega)
    (Or.inl (by
      intro x hx
      obtain ⟨y, -, rfl⟩ := List.mem_map.1 hx
      rfl))
    (by
      intro H hH
      obtain ⟨x, hx, rfl⟩ := List.mem_map.1 hH
      exact fun v hv => (hpos _ (l2 x hx).1 v hv).2)
    (by rw [l1, hWw])
    (by
      intro x hx
      have h3 := hload _ (l2 x hx).1
      rw [← (l2 x hx).2] at h3
      have h4 : ((2 * Hs.length * (loadOf x + om) : Int) : ℚ) ≤ ((2 * W + k * R : Int) : ℚ) := by exact_mod_cast h3
      push_cast at h4
      rw [hlen, hcnt]
      linarith)
    (by rw [hcnt]; exact margin_double hk m1 hL hsize hroom htight)
  have hag : agreed (globalWeight Hs) = .ok (weightOn Hs) := by
    apply agreed_ok
    · unfold globalWeight bulkSum
      simpa using hne
    · intro b hb
      unfold globalWeight bulkSum at hb
      obtain ⟨-, -, rfl⟩ := List.mem_map.1 hb
      exact totalWeights_eq Hs
  have hrun : recursiveBisectPar P k epsilon eta Hs rngs = .ok r := by
    unfold recursiveBisectPar
    rw [hag, ok_bind, hWw, ← hM]
    exact h
  obtain ⟨k1, k2⟩ : Kept N Hs r.Hs ∧ ∀ H ∈ r.Hs, ∀ v ∈ H.vertices, 0 ≤ v.part ∧ v.part < k := by
    rcases C61_partial hP hN hk hne hD hpos' hT hW53 hp epsilon heta hr with ⟨r', g1, g2⟩ | ⟨_, g1, -⟩
    · rw [hrun] at g1
      obtain rfl := Except.ok.inj g1
      exact g2
    · rw [hrun] at g1; cases g1
  refine ⟨r, hrun, k1, k2, ?_, fun c hc' => (hs c hc').2⟩
  intro q hq0 hqk
  have hsq : ((maxWeight P.rnd epsilon W k * k : Int) : ℚ) + W < 2 ^ 47 + 1 := by
    rw [← hM]
    have : M * k + W < 2 ^ 47 + 1 := by
      rw [mul_comm]; omega
    exact_mod_cast this
  rw [hM]
  refine (C62_balance hP hN hk hne hD hpos' hT hp heps heta hr hW (by rw [← hM, mul_comm]; exact hWM) ?_ hrun
    (fun c hc' => (hs c hc').1) hc q hq0 hqk).1
  rw [← hM]
  have h5 : W < k * M := by
    have h6 : 0 < (k : Int) * (R + 1) * max 1 (2 * ((L : Int) - 1)) := by
      have : (0 : Int) < k := by omega
      positivity
    omega
  have : M * k + W < 2 ^ 47 := by
    rw [mul_comm]; omega
  exact_mod_cast this

/-- C92: the recursion with random bisection and the lambda metric on `p ≥ 2` processors, in `double` arithmetic. `L` is
the logarithm of `k`, rounded up, `M` the bound `maxweight`, `W` the total weight, and no vertex weighs more than `om`.
Let `R` be at least `2 η M + 2 p + p² om`. When the slack `k M - W` is at least `k (R + 1) max(1, 2 (L - 1)) / 2` and
small enough compared with `M`, and at the start no processor has much more than an equal share of the weight, then for
all random streams the recursion ends, nothing is lost and every part weighs at most `M`. -/
theorem C92_random {F : Type} {E : List Bool → Nat → ParBisectEnv F} {N k L : Nat} {opts : Options} {p0 : Nat}
    (hb : opts.bisectionRandom = true) {P : ParRecEnv} (hbis : P.bis = codeBis E opts p0)
    (halone : P.alone = fun _ => bisectRandom) (hrnd : P.rnd = nearest53)
    (hord : ∀ path l, (P.ord path l).Perm l) (hdv : ∀ path, Fair (P.dVert path)) (hdc : ∀ path, Fair (P.dCost path))
    (hN : N < 2147483648) {om : Int} (hk : 2 ≤ k) {Hs : List Hypergraph} (h2 : 2 ≤ Hs.length)
    (hD : Distributed N Hs) (hpos : ∀ H ∈ Hs, ∀ v ∈ H.vertices, 0 < v.weight ∧ v.weight ≤ om) (hom : 1 ≤ om)
    (hp : Hs.length ≤ 2 ^ 50) {epsilon : ℚ} (heps : 0 ≤ epsilon)
    {eta : ℚ} (heta : 0 ≤ eta) (heta1 : eta ≤ 1) {rngs : List Rng} (hr : rngs.length = Hs.length) {W M R : Int}
    (hW : W = ((Hs.flatMap (·.vertices)).map (·.weight)).sum) (hM : M = maxWeight P.rnd epsilon W k)
    (hL : L = Nat.clog 2 k) (hsize : k * M * L ^ 3 ≤ 2 ^ 46)
    (hR : 2 * eta * M + 2 * Hs.length + (Hs.length : ℚ) ^ 2 * om ≤ R)
    (hroom : k * (R + 1) * max 1 (2 * ((L : Int) - 1)) ≤ 2 * (k * M - W))
    (htight : (k * M - W) * (L * (L + 1)) ≤ 2 * k * (M - 1))
    (hload : ∀ H ∈ Hs, 2 * Hs.length * ((H.vertices.map (·.weight)).sum + om) ≤ 2 * W + k * R) :
    ∃ r, recursiveBisectPar P k epsilon eta Hs rngs = .ok r ∧ Kept N Hs r.Hs ∧
      (∀ H ∈ r.Hs, ∀ v ∈ H.vertices, 0 ≤ v.part ∧ v.part < k) ∧
      ∀ q : Int, 0 ≤ q → q < k → (r.Hs.map (fun H => partWeight H q)).sum ≤ M := by
  have hP : ParRecEnvOk P N ((Hs.flatMap (·.vertices)).length + 1) (fun _ => False) := by
    refine ⟨?_, ?_, hord, hdv, hdc, by rw [hrnd]; exact nearest53_keepsInts, by rw [hrnd]; exact nearest53_rounds⟩
    · rw [hbis]; exact codeBis_random_well E N _ p0 hb
    · rw [halone]; exact fun _ => randomEnv_well id true N _
  obtain ⟨r, h1, h3, h4, h5, -⟩ := C92_rounds hP hN (om := om)
    (by rw [hbis]; exact codeBis_random_balances E p0 hb om)
    (by rw [halone]; exact fun _ => bisectRandom_balances N _ om) hk h2 hD hpos hom (by omega) hp heps heta heta1 hr
    hW hM hL hsize hR hroom htight hload
  exact ⟨r, h1, h3, h4, h5⟩

/-- Under the assumptions of C92 the cut size is the sum of the cuts of the bisections: C91 without a condition on the
run. -/
theorem C92_cost {F : Type} {E : List Bool → Nat → ParBisectEnv F} {N k L : Nat} {opts : Options} {p0 : Nat}
    (hb : opts.bisectionRandom = true) {P : ParRecEnv} (hbis : P.bis = codeBis E opts p0)
    (halone : P.alone = fun _ => bisectRandom) (hrnd : P.rnd = nearest53)
    (hord : ∀ path l, (P.ord path l).Perm l) (hdv : ∀ path, Fair (P.dVert path)) (hdc : ∀ path, Fair (P.dCost path))
    (hN : N < 2147483648) {om : Int} (hk : 2 ≤ k) {Hs : List Hypergraph} (h2 : 2 ≤ Hs.length)
    (hD : Distributed N Hs) (hpos : ∀ H ∈ Hs, ∀ v ∈ H.vertices, 0 < v.weight ∧ v.weight ≤ om) (hom : 1 ≤ om)
    (hp : Hs.length ≤ 2 ^ 50) {epsilon : ℚ} (heps : 0 ≤ epsilon)
    {eta : ℚ} (heta : 0 ≤ eta) (heta1 : eta ≤ 1) {rngs : List Rng} (hr : rngs.length = Hs.length) {W M R : Int}
    (hW : W = ((Hs.flatMap (·.vertices)).map (·.weight)).sum) (hM : M = maxWeight P.rnd epsilon W k)
    (hL : L = Nat.clog 2 k) (hsize : k * M * L ^ 3 ≤ 2 ^ 46)
    (hR : 2 * eta * M + 2 * Hs.length + (Hs.length : ℚ) ^ 2 * om ≤ R)
    (hroom : k * (R + 1) * max 1 (2 * ((L : Int) - 1)) ≤ 2 * (k * M - W))
    (htight : (k * M - W) * (L * (L + 1)) ≤ 2 * k * (M - 1))
    (hload : ∀ H ∈ Hs, 2 * Hs.length * ((H.vertices.map (·.weight)).sum + om) ≤ 2 * W + k * R)
    {np : NetPart} (hv : np.Valid Hs.length N) {d : Delivery LabelMsg} (hd : Fair d) {so : List Int → List Int}
    (hso : ∀ l, (so l).Perm l) :
    ∃ r Bs, recursiveBisectPar P k epsilon eta Hs rngs = .ok r ∧
      GroupBisections P eta M [] ⟨0, (k : Int) - 1⟩ W
        ((Hs.zip rngs).map (fun x => { H := x.1, fin := x.1.vertices.length, rng := x.2 })) Bs r.Hs ∧
      cutsizePar so d np r.Hs .lambdaMinusOne = .ok (r.Hs.map (fun _ => (Bs.map (groupCutCost N)).sum)) := by
  have hP : ParRecEnvOk P N ((Hs.flatMap (·.vertices)).length + 1) (fun _ => False) := by
    refine ⟨?_, ?_, hord, hdv, hdc, by rw [hrnd]; exact nearest53_keepsInts, by rw [hrnd]; exact nearest53_rounds⟩
    · rw [hbis]; exact codeBis_random_well E N _ p0 hb
    · rw [halone]; exact fun _ => randomEnv_well id true N _
  obtain ⟨r, h1, h3, h4, h5, h6⟩ := C92_rounds hP hN (om := om)
    (by rw [hbis]; exact codeBis_random_balances E p0 hb om)
    (by rw [halone]; exact fun _ => bisectRandom_balances N _ om) hk h2 hD hpos hom (by omega) hp heps heta heta1 hr
    hW hM hL hsize hR hroom htight hload
  have hpos' : ∀ H ∈ Hs, ∀ v ∈ H.vertices, 0 < v.weight := fun H hH v hv => (hpos H hH v hv).1
  have hne : Hs ≠ [] := by rintro rfl; simp at h2
  have hW53 : ((Hs.flatMap (·.vertices)).map (·.weight)).sum < 2 ^ 53 := by
    have hW0 : 0 ≤ W := by rw [hW]; exact weightOn_nonneg hpos'
    obtain ⟨m1, -⟩ := maxWeight_le hP.rounds heps hW0 (by omega : 0 < k)
    rw [← hM] at m1
    have hL1 : 1 ≤ L := by rw [hL]; exact clog_pos' hk
    have hkM : (k : Int) * M ≤ 2 ^ 46 := by
      refine le_trans ?_ hsize
      exact le_mul_of_one_le_right (by positivity) (one_le_pow₀ (by exact_mod_cast hL1))
    have hR1 : 0 ≤ R := by
      have h3 : (0 : ℚ) ≤ R := by
        refine le_trans ?_ hR
        have : (0 : ℚ) ≤ om := by exact_mod_cast (by omega : 0 ≤ om)
        have : (0 : ℚ) ≤ M := by exact_mod_cast m1
        positivity
      exact_mod_cast h3
    have h3 : 0 ≤ (k : Int) * (R + 1) * max 1 (2 * ((L : Int) - 1)) := by positivity
    rw [← hW]
    omega
  obtain ⟨Bs, v, b1, -, b2, -, b3⟩ := C91_partial hP hN hk hne hD hpos' (by omega) hW53 hp epsilon heta hr h1
    (by
      intro c hc h0
      by_contra hlt
      have := (h6 c hc).1 (by omega)
      omega)
    (by rw [h3.length]; exact hv) hd hso
  have hv := b3 (by
    intro c hc h0
    by_contra hlt
    have := (h6 c hc).2 (by omega)
    omega)
  rw [← hW, ← hM] at b1
  exact ⟨r, Bs, h1, b1, by rw [← hv]; exact b2⟩

/-- Two processors with 44 vertices of weight 100 each, and eight nets; every net is on both processors. -/
def eighty : List Hypergraph :=
  (List.range 2).map (fun t => Hypergraph.create 88 8
    ((List.range 44).map (fun i => { id := 44 * t + i, nets := [i % 8], weight := 100, part := -1 }))
    ((List.range 8).map (fun e =>
      { id := e, vertices := (List.range ((51 - e) / 8)).map (fun j => 44 * t + e + 8 * j), cost := 1,
        globalSize := 2 * ((51 - e) / 8) })))

theorem eighty_dist : Distributed 8 eighty :=
  ⟨by
    intro H hH
    simp only [eighty, List.range, List.range.loop, List.map_cons, List.map_nil, List.mem_cons, List.not_mem_nil,
      or_false] at hH
    rcases hH with rfl | rfl <;>
      exact WF_create (by decide +kernel) (by decide +kernel) (by decide +kernel) (by decide +kernel)
        (by decide +kernel) (by decide +kernel),
    by decide +kernel, by decide +kernel, by decide +kernel⟩

/-- Four parts with ε = 0.49 and η = 0.1, the default: for all random streams no part weighs more than 3278, that is,
every part has at most 32 of the 88 vertices. -/
example (rngs : List Rng) (hr : rngs.length = 2) :
    ∃ r, recursiveBisectPar exampleRecEnv 4 (49 / 100) (1 / 10) eighty rngs = .ok r ∧ Kept 8 eighty r.Hs ∧
      (∀ H ∈ r.Hs, ∀ v ∈ H.vertices, 0 ≤ v.part ∧ v.part < (4 : Nat)) ∧
      ∀ q : Int, 0 ≤ q → q < (4 : Nat) → (r.Hs.map (fun H => partWeight H q)).sum ≤ 3278 :=
  C92_random (E := fun _ _ => exampleParEnv) (opts := { exampleOpts with bisectionRandom := true }) (p0 := 1) rfl rfl
    rfl rfl (fun _ l => l.reverse_perm) (fun _ => revDelivery_fair _) (fun _ => revDelivery_fair _) (by decide)
    (om := 100) (by decide) (by decide) eighty_dist (by decide +kernel) (by decide) (by decide) (by norm_num)
    (by norm_num) (by norm_num) (by rw [hr]; rfl) (W := 8800) (M := 3278) (R := 1060) (L := 2) (by decide +kernel)
    (show (3278 : Int) = maxWeight nearest53 (49 / 100) 8800 4 by decide +kernel) (by decide) (by decide)
    (by rw [show eighty.length = 2 from rfl]; norm_num) (by decide) (by decide) (by decide +kernel)

end PMondriaan
