import Verif.Proofs.RecBalancePar
import Verif.Props.RecBisectPar

/-
Properties C62 and C63: the weights of the parts after the recursion on several processors, and the labels of sides
that get no processor.
-/

namespace PMondriaan

open Spec

/-- The start of the recursion. -/
theorem recPar_start {P : ParRecEnv} {N T k : Nat} (hk : 2 ≤ k) {Hs : List Hypergraph} (hne : Hs ≠ [])
    (hD : Distributed N Hs) (hpos : ∀ H ∈ Hs, ∀ v ∈ H.vertices, 0 < v.weight)
    (hT : (Hs.flatMap (·.vertices)).length < T) (hW : weightOn Hs < 2 ^ 53) (hp : Hs.length ≤ 2 ^ 50) {epsilon eta : ℚ}
    {rngs : List Rng} (hr : rngs.length = Hs.length) {r : GroupResult}
    (h : recursiveBisectPar P k epsilon eta Hs rngs = .ok r) :
    ∃ xs, xs.map (·.H) = Hs ∧ GroupInv N T k ⟨0, (k : Int) - 1⟩ xs ∧ AloneFull xs ∧
      (⟨0, (k : Int) - 1⟩ : Interval).count = k ∧
      recPar P eta (maxWeight P.rnd epsilon (weightOn Hs) k) (k + 1) [] ⟨0, (k : Int) - 1⟩ (weightOn Hs) xs = .ok r := by
  obtain ⟨e, hI⟩ := start_inv hk hD hpos hT hW hp hr
  have hag : agreed (globalWeight Hs) = .ok (weightOn Hs) := by
    apply agreed_ok
    · unfold globalWeight bulkSum
      simpa using hne
    · intro b hb
      unfold globalWeight bulkSum at hb
      obtain ⟨-, -, rfl⟩ := List.mem_map.1 hb
      exact totalWeights_eq Hs
  refine ⟨_, e, hI, ?_, ?_, ?_⟩
  · intro _ x hx
    obtain ⟨y, -, rfl⟩ := List.mem_map.1 hx
    rfl
  · unfold Interval.count Interval.length
    dsimp only
    omega
  · unfold recursiveBisectPar at h
    rw [hag, ok_bind] at h
    exact h

/-- C62: for every number of processors, `k ≥ 2` and distributed hypergraph with positive weights: when the recursion
with the lambda metric ends normally and every bisection in it (by groups and by processors that are alone) stayed
within the bounds handed to it, every part has, over all processors, at most weight `maxweight`, and this is at most
`(1 + ε) W / k` up to rounding. This also holds when a side gets no processor. Assumed are that the total weight is at
most `k` times `maxweight` (otherwise no partition is balanced) and that the weights are small enough for doubles. -/
theorem C62_balance {P : ParRecEnv} {N T k : Nat} {Bad : Err → Prop} (hP : ParRecEnvOk P N T Bad)
    (hN : N < 2147483648) (hk : 2 ≤ k) {Hs : List Hypergraph} (hne : Hs ≠ []) (hD : Distributed N Hs)
    (hpos : ∀ H ∈ Hs, ∀ v ∈ H.vertices, 0 < v.weight) (hT : (Hs.flatMap (·.vertices)).length < T)
    (hp : Hs.length ≤ 2 ^ 50) {epsilon : ℚ} (heps : 0 ≤ epsilon) {eta : ℚ} (heta : 0 ≤ eta) {rngs : List Rng}
    (hr : rngs.length = Hs.length) {W : Int} (hW : W = ((Hs.flatMap (·.vertices)).map (·.weight)).sum)
    (hWM : W ≤ maxWeight P.rnd epsilon W k * k)
    (hsmall : ((maxWeight P.rnd epsilon W k * k : Int) : ℚ) + W < 2 ^ 47) {r : GroupResult}
    (h : recursiveBisectPar P k epsilon eta Hs rngs = .ok r) (hs : ∀ c ∈ r.splits, ParSplit.Respects c)
    (hc : ∀ c ∈ r.calls, BisectCall.Respects c) (q : Int) (hq0 : 0 ≤ q) (hqk : q < k) :
    (r.Hs.map (fun H => partWeight H q)).sum ≤ maxWeight P.rnd epsilon W k ∧
    (((r.Hs.map (fun H => partWeight H q)).sum : Int) : ℚ) ≤ (1 + 8 / 2 ^ 53) * ((1 + epsilon) * W / k) := by
  have hW0 : 0 ≤ W := by rw [hW]; exact weightOn_nonneg hpos
  obtain ⟨m1, m2⟩ := maxWeight_le hP.rounds heps hW0 (by omega : 0 < k)
  have hW53 : weightOn Hs < 2 ^ 53 := by
    have h1 : (0 : ℚ) ≤ ((maxWeight P.rnd epsilon W k * k : Int) : ℚ) := by
      have : 0 ≤ maxWeight P.rnd epsilon W k * k := by positivity
      exact_mod_cast this
    have h2 : (W : ℚ) < 2 ^ 53 := by
      have : (2 : ℚ) ^ 47 < 2 ^ 53 := by norm_num
      linarith
    have h3 : W < 2 ^ 53 := by exact_mod_cast h2
    rw [hW] at h3
    exact h3
  obtain ⟨xs, e, hI, hX, hcnt, hrec⟩ := recPar_start hk hne hD hpos hT hW53 hp hr h
  have hWw : weightOn Hs = W := hW.symm
  rw [hWw] at hrec
  have hle : (r.Hs.map (fun H => partWeight H q)).sum ≤ maxWeight P.rnd epsilon W k :=
    recPar_balance hP hN heta (W := W) m1 (by
        have e1 : (40 : ℚ) * (1 / 2 ^ 53) * 2 ^ 47 < 1 := by norm_num
        refine lt_trans ?_ e1
        exact mul_lt_mul_of_pos_left hsmall (by norm_num)) (k + 1) [] _ W xs hI hX (by omega) hW0 (le_refl _)
      (by rw [hcnt]; exact hWM) (by rw [e, hWw]) r hrec hs hc q hq0 (by dsimp only; omega)
  refine ⟨hle, le_trans (by exact_mod_cast hle) (le_trans m2 (le_of_eq ?_))⟩
  ring

/-- Four parts on three processors, all bisections within their bounds: `maxweight` is 6. The processor with two
labels left works alone. -/
example : (13 : Int) = ((exampleThree.flatMap (·.vertices)).map (·.weight)).sum ∧ maxWeight nearest53 1 13 4 = 6 ∧
    (recursiveBisectPar exampleRecEnv 4 1 0 exampleThree [fun n => (n + 5) * (n + 6) / 2 + 1, fun n => n * n / 3 + 3,
      fun n => (n + 3) / 2]).toOption.map
      (fun r => (r.Hs.map (fun H => H.vertices.map (fun v => (v.id, v.part))), decide (∀ c ∈ r.splits,
        ParSplit.Respects c), decide (∀ c ∈ r.calls, BisectCall.Respects c), r.splits.length, r.calls.length)) =
      some ([[(0, 1), (1, 0), (7, 0), (5, 1)], [(3, 2), (4, 2), (2, 3)], [(6, 2)]], true, true, 2, 1) :=
  ⟨by decide, by decide +kernel, by decide +kernel⟩

/-- C63, what holds in general: when a group with at least five labels leaves the low side without processors, at the
end no vertex has a label of the low side, also when the bisection gave vertices to that side. When it
leaves the high side without processors, at the end no vertex has a label of the high side. -/
theorem C63_empty {P : ParRecEnv} {N T k : Nat} {Bad : Err → Prop} (hP : ParRecEnvOk P N T Bad)
    (hN : N < 2147483648) (hk : 2 ≤ k) {Hs : List Hypergraph} (hne : Hs ≠ []) (hD : Distributed N Hs)
    (hpos : ∀ H ∈ Hs, ∀ v ∈ H.vertices, 0 < v.weight) (hT : (Hs.flatMap (·.vertices)).length < T)
    (hW : ((Hs.flatMap (·.vertices)).map (·.weight)).sum < 2 ^ 53) (hp : Hs.length ≤ 2 ^ 50) (epsilon : ℚ) {eta : ℚ}
    (heta : 0 ≤ eta) {rngs : List Rng} (hr : rngs.length = Hs.length) {r : GroupResult}
    (h : recursiveBisectPar P k epsilon eta Hs rngs = .ok r) : ∀ c ∈ r.splits,
    (c.plow = 0 → 4 ≤ c.high - c.low → ∀ H ∈ r.Hs, ∀ v ∈ H.vertices,
      ¬ (c.low ≤ v.part ∧ 2 * v.part < c.low + c.high)) ∧
    (c.plow = c.p → 2 ≤ c.high - c.low → ∀ H ∈ r.Hs, ∀ v ∈ H.vertices,
      ¬ (c.low + c.high ≤ 2 * v.part ∧ v.part ≤ c.high)) := by
  obtain ⟨xs, e, hI, hX, hcnt, hrec⟩ := recPar_start hk hne hD hpos hT hW hp hr h
  have hpos' : ∀ H ∈ r.Hs, ∀ v ∈ H.vertices, 0 < v.weight := by
    rcases recPar_spec hP hN heta _ (k + 1) [] _ (weightOn Hs) xs hI (by omega) with ⟨r', h', hkept, -⟩ | ⟨e', h', -⟩
    · rw [hrec] at h'
      injection h' with h'
      subst h'
      exact hkept.pos hI.pos
    · rw [hrec] at h'; cases h'
  intro c hc
  obtain ⟨-, h1, -, h3⟩ := recPar_empty hP hN heta _ (k + 1) [] _ (weightOn Hs) xs hI hX (by omega) r hrec c hc
  constructor
  · intro hp0 h4 H hH v hv hq
    exact partOn_zero hpos' (h1 hp0 h4 v.part hq.1 hq.2) H hH v hv rfl
  · intro hp0 h4 H hH v hv hq
    exact partOn_zero hpos' (h3 hp0 h4 v.part hq.1 hq.2) H hH v hv rfl

/-- C63, partial: when a group with three or four labels leaves the low side without processors, the part with the
lowest label has at the end exactly the weight that the bisection gave to the low side. What is missing is that with
more labels this weight is lost to other parts, see `C63_false`. -/
theorem C63_partial {P : ParRecEnv} {N T k : Nat} {Bad : Err → Prop} (hP : ParRecEnvOk P N T Bad)
    (hN : N < 2147483648) (hk : 2 ≤ k) {Hs : List Hypergraph} (hne : Hs ≠ []) (hD : Distributed N Hs)
    (hpos : ∀ H ∈ Hs, ∀ v ∈ H.vertices, 0 < v.weight) (hT : (Hs.flatMap (·.vertices)).length < T)
    (hW : ((Hs.flatMap (·.vertices)).map (·.weight)).sum < 2 ^ 53) (hp : Hs.length ≤ 2 ^ 50) (epsilon : ℚ) {eta : ℚ}
    (heta : 0 ≤ eta) {rngs : List Rng} (hr : rngs.length = Hs.length) {r : GroupResult}
    (h : recursiveBisectPar P k epsilon eta Hs rngs = .ok r) : ∀ c ∈ r.splits, c.plow = 0 → 2 ≤ c.high - c.low →
    c.high - c.low ≤ 3 → (r.Hs.map (fun H => partWeight H c.low)).sum = c.w0 := by
  obtain ⟨xs, e, hI, hX, hcnt, hrec⟩ := recPar_start hk hne hD hpos hT hW hp hr h
  exact recPar_keep hP hN heta _ (k + 1) [] _ (weightOn Hs) xs hI hX (by omega) r hrec

/-- The run of C61's example: the second bisection leaves its low side (label 2) without processors, part 2 keeps its
weight. -/
example : (recursiveBisectPar exampleRecEnv 5 (1 / 4) 0 exampleThree [fun n => n, fun n => n, fun n => n + 1]).toOption.map
      (fun r => (r.splits.map (fun c => (c.plow, c.low, c.high, c.w0)), (r.Hs.map (fun H => partWeight H 2)).sum)) =
    some ([(1, 0, 4, 3), (0, 2, 4, 3), (1, 3, 4, 5)], 3) := by decide +kernel

/-- C63 is false in general: three processors, five parts. All bisections stay within their bounds. The first gives
weight 2 to the low side, which gets no processor; these vertices have their final label 0. The second round has no
processor for its low side either, and `redistribute_hypergraph` returns the number of vertices without the label that
is low now: the vertices with label 0 count as not finished and get other labels in the third round. At the end the
parts 0 and 1 are empty. -/
theorem C63_false : ∃ r, recursiveBisectPar exampleRecEnv 5 3 0 exampleThree
      [fun n => n + 11, fun n => n / 2 + 1, fun n => (n + 4) / 3] = .ok r ∧
    (∀ c ∈ r.splits, ParSplit.Respects c) ∧
    (∃ c ∈ r.splits, c.plow = 0 ∧ c.low = 0 ∧ c.w0 = 2) ∧
    (r.Hs.map (fun H => partWeight H 0)).sum = 0 ∧ (r.Hs.map (fun H => partWeight H 1)).sum = 0 := by
  have h : ((recursiveBisectPar exampleRecEnv 5 3 0 exampleThree
      [fun n => n + 11, fun n => n / 2 + 1, fun n => (n + 4) / 3]).toOption.map (fun r =>
        decide ((∀ c ∈ r.splits, ParSplit.Respects c) ∧
          (∃ c ∈ r.splits, c.plow = 0 ∧ c.low = 0 ∧ c.w0 = 2) ∧
          (r.Hs.map (fun H => partWeight H 0)).sum = 0 ∧ (r.Hs.map (fun H => partWeight H 1)).sum = 0))) = some true := by
    decide +kernel
  cases hr : recursiveBisectPar exampleRecEnv 5 3 0 exampleThree
      [fun n => n + 11, fun n => n / 2 + 1, fun n => (n + 4) / 3] with
  | error e => rw [hr] at h; cases h
  | ok r =>
    rw [hr] at h
    refine ⟨r, rfl, ?_⟩
    simpa [Except.toOption] using h

end PMondriaan
