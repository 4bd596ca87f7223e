import Verif.Proofs.MachineMlParTop

/-
C110: the bisection on several processors in 64-bit arithmetic.
-/

namespace PMondriaan

open Spec Contraction

variable {F : Type} {E : ParBisectEnv F} {N T : Nat}

/-- C110 for the coarsening: on any distributed hypergraph of weight at most `2^61` one level of the parallel
coarsening in 64-bit arithmetic is the one without bounds, failures included. -/
theorem C110_coarsen_par64 {p : Nat} {E : CoarseEnv F} (hE : CoarseEnvOk E p N) (hacc : ∀ d s : Nat, 1 ≤ s → E.accRandom d s s = true)
    (opts : Options) (ho : opts.samplingLp = true → 1 ≤ opts.sampleSize) {Hs : List Hypergraph} (hp : Hs.length = p)
    (hD : Distributed N Hs) {rngs : List Rng} (hr : rngs.length = p) (hpos : ∀ H ∈ Hs, WeightsNonneg H)
    (hT : (Hs.map (fun H => (H.vertices.map (·.weight)).sum)).sum ≤ 2 ^ 61) :
    coarsenPar64 E opts Hs rngs = coarsenPar E opts Hs rngs :=
  coarsenPar64_eq hE hacc opts ho hp hD hr hpos hT

/-- C110: when the multilevel bisection on several processors succeeds on integers, it succeeds in 64-bit arithmetic with the
same result, as long as the weight of the ranges and the bounds are moderate. -/
theorem C110_multilevel_par64 {xs : List RangeOf} (hE : ParBisectEnvOk E xs.length N T) (hne : xs ≠ [])
    (hD : Distributed N (xs.map (·.H))) (hr : ∀ x ∈ xs, x.s ≤ x.e ∧ x.e ≤ x.H.vertices.length)
    (hpos : ∀ x ∈ xs, ∀ v ∈ x.H.vertices, 0 < v.weight) (hN : N < 2147483648)
    (hT : (xs.map (fun x => x.H.vertices.length)).sum < T) {labels : Interval}
    (opts : Options) (ho : opts.samplingLp = true → 1 ≤ opts.sampleSize) {max0 max1 : Int}
    (hm : WorldModerate xs.length N opts.klfmMaxPasses (xs.map (fun x => ((inRange x).map (·.weight)).sum)).sum max0 max1)
    {rngs : List Rng} (hrn : rngs.length = xs.length) {rs : List RState}
    (h : bisectMultilevelPar E opts max0 max1 xs labels rngs = .ok rs) :
    bisectMultilevelPar64 E opts max0 max1 xs labels rngs = .ok rs := by
  obtain ⟨Rs, c1, c2⟩ := createNewPar_ok hD hr hE.np hE.d1 hE.d2 hE.orderNets
  obtain ⟨H0, k1, -⟩ := mapM_choose (l := Rs) (f := fun R => R.copy) (P := fun _ _ => True) (by
    intro R hR
    obtain ⟨x, hx, h⟩ := forall2_mem_right c2 hR
    obtain ⟨H', h1, -⟩ := copy_ok h.wf
    exact ⟨H', h1, trivial⟩)
  obtain ⟨M, m1, m2, m3⟩ := start_ok hD c2 k1
  have hlev := started_level hD hne hpos hT m2 (fun m hm => (m3 m hm).2)
  have hlen : (M.map (·.2)).length = xs.length := by rw [List.length_map, m2.length_eq]
  have hW0 : 0 ≤ (xs.map (fun x => ((inRange x).map (·.weight)).sum)).sum := by
    apply sum_map_nonneg
    intro x hx
    exact sum_map_nonneg _ _ (fun v hv => le_of_lt (hpos x hx v ((inRange_sub x).subset hv)))
  have hW60 := hm.total hW0
  have htot := started_total m2
  have hfree := totalFree_nonneg hpos m2
  have hvs := level_total_nonneg hlev
  have hfpos := started_free_pos hpos m2
  have hloc : ∀ m ∈ M, m.1.localFree = (m.1.free.map (·.2)).sum := by
    intro m hm
    obtain ⟨x, -, hst⟩ := forall2_mem_right m2 hm
    exact hst.localFree
  have m64 : mergeFreePar64 (H0.map (fun H => (({} : Contraction), H))) = .ok M := by
    refine mergeFreePar64_eq m1 (fun c hc f hf => le_of_lt (hfpos c hc f hf)) ?_ ?_
    · intro c hc
      rw [hloc c hc]
      exact sum_map_nonneg _ _ (fun f hf => le_of_lt (hfpos c hc f hf))
    · rw [List.map_congr_left hloc]
      have : (M.map (fun c => (c.1.free.map (·.2)).sum)).sum = totalFree M := rfl
      omega
  unfold bisectMultilevelPar at h
  unfold bisectMultilevelPar64
  simp only [c1, k1, m1, m64, ok_bind] at h ⊢
  rw [bind_eq_ok] at h
  obtain ⟨L, hL, h⟩ := h
  rw [bind_eq_ok] at h
  obtain ⟨as, ha, h⟩ := h
  have hgl : (M.map (fun _ => true)).length = xs.length := by rw [List.length_map, m2.length_eq]
  have hgg : ∃ g, ∀ b ∈ M.map (fun _ => true), b = g := ⟨true, by
    intro b hb
    obtain ⟨-, -, hb⟩ := List.mem_map.1 hb
    exact hb.symm⟩
  have hL64 := mlPar64_sim hE hN opts ho hm opts.coarseningMaxrounds 0 _ (M.map (·.2)) rngs hlen hlev hgl hgg hrn (by omega)
    L hL
  rw [hL64, ok_bind]
  rcases mlPar_ok hE hN opts ho max0 max1 opts.coarseningMaxrounds 0 _ (M.map (·.2)) rngs hlen hlev hgl hgg hrn with
    ⟨L2, l1, l2⟩ | ⟨-, l1⟩ | ⟨-, l1⟩
  · have he : L2 = L := Except.ok.inj (l1.symm.trans hL)
    subst he
    obtain ⟨f1, f2⟩ := finishPar64_sim hD hne hpos m2 (fun m hm => (m3 m hm).1) l2 hE.srt hm.bounds (le_refl _) hW60
      hm.w0 hm.w1 _ ha h
    rw [f1, ok_bind]
    exact f2
  · rw [l1] at hL; cases hL
  · rw [l1] at hL; cases hL

/-- C110 without an assumption on the other run: with sampling by label propagation and bounds of at least the weight of
the ranges, the 64-bit program does succeed, and each processor gets the low or the high label on its range and the true weights. -/
theorem C110_multilevel_par64_slack {xs : List RangeOf} (hE : ParBisectEnvOk E xs.length N T) (hne : xs ≠ [])
    (hD : Distributed N (xs.map (·.H))) (hr : ∀ x ∈ xs, x.s ≤ x.e ∧ x.e ≤ x.H.vertices.length)
    (hpos : ∀ x ∈ xs, ∀ v ∈ x.H.vertices, 0 < v.weight) (hN : N < 2147483648)
    (hT : (xs.map (fun x => x.H.vertices.length)).sum < T) {labels : Interval} (hl : labels.low ≠ labels.high)
    (opts : Options) (hlp : opts.samplingLp = true) (ho : 1 ≤ opts.sampleSize) {max0 max1 : Int}
    (h0 : (xs.map (fun x => ((inRange x).map (·.weight)).sum)).sum ≤ max0)
    (h1 : (xs.map (fun x => ((inRange x).map (·.weight)).sum)).sum ≤ max1)
    (hm : WorldModerate xs.length N opts.klfmMaxPasses (xs.map (fun x => ((inRange x).map (·.weight)).sum)).sum max0 max1)
    {rngs : List Rng} (hrn : rngs.length = xs.length) :
    ∃ rs, bisectMultilevelPar64 E opts max0 max1 xs labels rngs = .ok rs ∧
      List.Forall₂ (fun (x : RangeOf) (r : RState) => Relabels x.s x.e labels.low labels.high x.H r.H ∧
        r.w0 = rangeWeight r.H x.s x.e labels.low ∧ r.w1 = rangeWeight r.H x.s x.e labels.high) xs rs := by
  rcases C60_partial hE hne hD hr hpos hN hT hl opts (fun _ => ho) max0 max1 hrn with ⟨rs, a1, a2⟩ | ⟨a1, -⟩ | ⟨a1, -⟩
  · exact ⟨rs, C110_multilevel_par64 hE hne hD hr hpos hN hT opts (fun _ => ho) hm hrn a1, a2⟩
  · exact absurd ⟨h0, h1⟩ a1
  · rw [hlp] at a1
    cases a1

/-- C110: the random bisection on several processors is the same in 64-bit arithmetic, failures included, when the range of each
processor weighs less than `2^63`. -/
theorem C110_random_par64 {xs : List RangeOf} {opts : Options} (ho : opts.bisectionRandom = true)
    (hr : ∀ x ∈ xs, x.e ≤ x.H.vertices.length) (hpos : ∀ x ∈ xs, ∀ v ∈ x.H.vertices, 0 ≤ v.weight)
    (hT : ∀ x ∈ xs, ((inRange x).map (·.weight)).sum < 2 ^ 63) (max0 max1 : Int) (labels : Interval) (rngs : List Rng) :
    bisectPar64 E opts xs max0 max1 labels rngs = bisectPar E opts xs max0 max1 labels rngs := by
  unfold bisectPar64 bisectPar
  rw [if_pos ho, if_pos ho]
  apply mapM_congr_mem
  intro x hx
  have h1 := (List.of_mem_zip hx).1
  exact C104_random (hpos _ h1) (hr _ h1) (hT _ h1) _ _ labels x.2

/-- C110 in round numbers: on up to `2^60 / N` processors, with at most 100 passes of the refinement and weights and bounds of at
most `3 * 10^9`, `bisect` on several processors does in 64-bit arithmetic what it does on integers. -/
theorem C110_moderate {xs : List RangeOf} (hE : ParBisectEnvOk E xs.length N T) (hne : xs ≠ [])
    (hD : Distributed N (xs.map (·.H))) (hr : ∀ x ∈ xs, x.s ≤ x.e ∧ x.e ≤ x.H.vertices.length)
    (hpos : ∀ x ∈ xs, ∀ v ∈ x.H.vertices, 0 < v.weight) (hN : N < 2147483648) (hp : xs.length * N ≤ 2 ^ 60)
    (hT : (xs.map (fun x => x.H.vertices.length)).sum < T) {labels : Interval}
    (opts : Options) (ho : opts.samplingLp = true → 1 ≤ opts.sampleSize) (hk : opts.klfmMaxPasses ≤ 100)
    (hw : (xs.map (fun x => ((inRange x).map (·.weight)).sum)).sum ≤ 3000000000) {max0 max1 : Int}
    (h0 : 0 ≤ max0 ∧ max0 ≤ 3000000000) (h1 : 0 ≤ max1 ∧ max1 ≤ 3000000000)
    {rngs : List Rng} (hrn : rngs.length = xs.length) {rs : List RState}
    (h : bisectPar E opts xs max0 max1 labels rngs = .ok rs) :
    bisectPar64 E opts xs max0 max1 labels rngs = .ok rs := by
  have hW0 : ∀ x ∈ xs, 0 ≤ ((inRange x).map (·.weight)).sum := fun x hx =>
    sum_map_nonneg _ _ (fun v hv => le_of_lt (hpos x hx v ((inRange_sub x).subset hv)))
  by_cases hb : opts.bisectionRandom = true
  · rw [C110_random_par64 hb (fun x hx => (hr x hx).2) (fun x hx v hv => le_of_lt (hpos x hx v hv)) ?_]
    · exact h
    · intro x hx
      have : ((inRange x).map (·.weight)).sum ≤ (xs.map (fun x => ((inRange x).map (·.weight)).sum)).sum := by
        apply entry_le_sum ?_ (List.mem_map.2 ⟨x, hx, rfl⟩)
        intro z hz
        obtain ⟨x', hx', rfl⟩ := List.mem_map.1 hz
        exact hW0 x' hx'
      omega
  · unfold bisectPar at h
    unfold bisectPar64
    rw [if_neg hb] at h ⊢
    refine C110_multilevel_par64 hE hne hD hr hpos hN hT opts ho ?_ hrn h
    have hWW := sum_map_nonneg xs _ hW0
    generalize (xs.map (fun x => ((inRange x).map (·.weight)).sum)).sum = W at hw hWW
    have hmul : ∀ a b : Int, 0 ≤ a → a ≤ 3000000000 → 0 ≤ b → b ≤ 3000000000 → a * b < 2 ^ 63 := by
      intro a b ha ha' hb hb'
      have := Int.mul_le_mul ha' hb' hb (by omega)
      omega
    refine ⟨⟨h0.1, h1.1, by omega, by omega, hmul _ _ h0.1 h0.2 h1.1 h1.2⟩, ?_, hmul _ _ hWW hw h0.1 h0.2,
      hmul _ _ hWW hw h1.1 h1.2, ?_⟩
    · have h3 : (3 * (opts.klfmMaxPasses : Int) + 1) ≤ 301 := by omega
      have := Int.mul_le_mul h3 hw hWW (by omega)
      omega
    · exact_mod_cast hp

/-- `exampleWide` with all weights `w`. -/
def wideOf (w : Int) : List RangeOf :=
  exampleWide.map (fun x =>
    ⟨Hypergraph.create 8 5 (x.H.vertices.map (fun v => ⟨v.id, v.nets, w, v.part⟩)) x.H.nets, x.s, x.e⟩)

/-- The conditions of C110 hold of `exampleWide` (see also the example of C60), and the 64-bit program coarsens once and
gives the bisection of C60. -/
example : exampleWide ≠ [] ∧ exampleWide.length * 5 ≤ 2 ^ 60 ∧
    WorldModerate exampleWide.length 5 2 (exampleWide.map (fun x => ((inRange x).map (·.weight)).sum)).sum 6 6 ∧
    (bisectPar64 exampleParEnv { exampleOpts with sampleSize := 1, maxClustersize := 1, coarseningMaxrounds := 1 }
      exampleWide 6 6 ⟨4, 5⟩ [fun n => n + 1, fun n => n + 2]).toOption.map
        (fun rs => rs.map (fun r => (r.H.vertices.map (·.part), r.w0, r.w1))) =
      some [([5, 5, 4, 4], 2, 3), ([5, 5, 4, 4], 4, 2)] :=
  ⟨by decide, by decide, ⟨⟨by decide, by decide, by decide, by decide, by decide⟩, by decide, by decide, by decide, by decide⟩,
    by decide +kernel⟩

/-- C110: without the bounds on the weights it fails. With weights of `2^62` the coarsening overflows (a vertex of the
other processor is added to a sample) and so does the random bisection, with weights of `2^61` the multilevel bisection; on integers all three succeed. -/
theorem C110_overflow :
    (coarsenPar64 (exampleParEnv.coarse 0) { exampleOpts with sampleSize := 1, maxClustersize := 1 }
        ((wideOf 4611686018427387904).map (·.H)) [fun n => n + 1, fun n => n + 2] = .error .ub ∧
      (coarsenPar (exampleParEnv.coarse 0) { exampleOpts with sampleSize := 1, maxClustersize := 1 }
        ((wideOf 4611686018427387904).map (·.H)) [fun n => n + 1, fun n => n + 2]).toOption.isSome) ∧
    (bisectMultilevelPar64 exampleParEnv { exampleOpts with sampleSize := 1, maxClustersize := 1, coarseningMaxrounds := 1 }
        9000000000000000000 9000000000000000000 (wideOf 2305843009213693952) ⟨4, 5⟩ [fun n => n + 1, fun n => n + 2] =
        .error .ub ∧
      (bisectMultilevelPar exampleParEnv { exampleOpts with sampleSize := 1, maxClustersize := 1, coarseningMaxrounds := 1 }
        9000000000000000000 9000000000000000000 (wideOf 2305843009213693952) ⟨4, 5⟩
        [fun n => n + 1, fun n => n + 2]).toOption.isSome) ∧
    (bisectPar64 exampleParEnv { exampleOpts with bisectionRandom := true } (wideOf 4611686018427387904)
        9000000000000000000 9000000000000000000 ⟨4, 5⟩ [fun n => n + 1, fun n => n + 2] = .error .ub ∧
      (bisectPar exampleParEnv { exampleOpts with bisectionRandom := true } (wideOf 4611686018427387904)
        9000000000000000000 9000000000000000000 ⟨4, 5⟩ [fun n => n + 1, fun n => n + 2]).toOption.isSome) :=
  ⟨⟨eq_of_failsWith (by decide +kernel), by decide +kernel⟩, ⟨eq_of_failsWith (by decide +kernel), by decide +kernel⟩,
    ⟨eq_of_failsWith (by decide +kernel), by decide +kernel⟩⟩

/-- `n` vertices of weight `w` without nets, all in part `q`. -/
def looseOnes (n : Nat) (w : Int) (q : Int) : Hypergraph :=
  Hypergraph.create n 0 ((List.range n).map (fun i => { id := i, nets := [], weight := w, part := q })) []

/-- C110: the choice of the best bisection: when the weight fits and the cut is below `LONG_MAX`, a processor with a bisection
within the bounds offers its cut, also when a bound is attained, and one with a bisection beyond them offers nothing. -/
theorem C110_cut_size {G : Hypergraph} (hw : WeightsNonneg G) (hT : (G.vertices.map (·.weight)).sum < 2 ^ 63)
    {c : Int} (h0 : 0 ≤ c) (hc : c < 2 ^ 63 - 1) (max0 max1 : Int) :
    cutSize64 max0 max1 G (some c) = .ok (if partWeight G 0 ≤ max0 ∧ partWeight G 1 ≤ max1 then some c else none) := by
  rw [cutSize64_eq hw hT h0 hc]
  unfold cutSize
  simp only [weightPart_eq]
  by_cases h : partWeight G 0 ≤ max0 ∧ partWeight G 1 ≤ max1
  · rw [if_pos h, if_neg (by omega)]
  · rw [if_neg h, if_pos (by omega)]

/-- A bound that is attained, and one that is not. -/
example : (cutSize64 2 9 (looseOnes 2 1 0) (some 5)).toOption = some (some 5) ∧
    (cutSize64 1 9 (looseOnes 2 1 0) (some 5)).toOption = some none := by decide +kernel

/-- C110: each sum can leave the range on its own: the total of the free vertices over the processors, the weight of the
vertices sent to a sample, the weight received for a sample from several processors, the sum of the two, the cut and the weights of
both parts at the choice of the best bisection, and the weights returned. -/
theorem C110_overflow_steps :
    mergeFreePar64 [({}, looseOnes 1 4611686018427387904 0), ({}, looseOnes 1 4611686018427387904 0)] = .error .ub ∧
    infoStep64 id 2 1 (looseOnes 1 1 0) ⟨some 0, 9223372036854775807, [], [], [false]⟩ (0, 0) = .error .ub ∧
    infoReceive64 ⟨[9223372036854775807], [[]], []⟩ ⟨0, 1, [], []⟩ = .error .ub ∧
    growSample64 id (looseOnes 1 1 0) ⟨[9223372036854775807], [[]], []⟩ (looseOnes 1 1 0) (0, 0) = .error .ub ∧
    cutSize64 9 9 (looseOnes 1 1 0) (some 9223372036854775807) = .error .ub ∧
    cutSize64 9223372036854775807 9 (looseOnes 2 4611686018427387904 0) (some 0) = .error .ub ∧
    cutSize64 9 9223372036854775807 (looseOnes 2 4611686018427387904 1) (some 0) = .error .ub ∧
    finishOne64 ⟨0, 1⟩ (⟨looseOnes 2 4611686018427387904 0, 0, 2⟩, ⟨looseOnes 2 4611686018427387904 0, 0, 0, fun _ => 0⟩) =
      .error .ub ∧
    finishOne64 ⟨0, 1⟩ (⟨looseOnes 2 4611686018427387904 1, 0, 2⟩, ⟨looseOnes 2 4611686018427387904 1, 0, 0, fun _ => 0⟩) =
      .error .ub := by
  refine ⟨?_, ?_, ?_, ?_, ?_, ?_, ?_, ?_, ?_⟩ <;> exact eq_of_failsWith (by decide +kernel)

/-- Just below, the same steps succeed. -/
example :
    (mergeFreePar64 [({}, looseOnes 1 4611686018427387904 0), ({}, looseOnes 1 4611686018427387903 0)]).toOption.isSome ∧
    (infoStep64 id 2 1 (looseOnes 1 1 0) ⟨some 0, 9223372036854775806, [], [], [false]⟩ (0, 0)).toOption.isSome ∧
    (infoReceive64 ⟨[9223372036854775806], [[]], []⟩ ⟨0, 1, [], []⟩).toOption.isSome ∧
    (growSample64 id (looseOnes 1 1 0) ⟨[9223372036854775806], [[]], []⟩ (looseOnes 1 1 0) (0, 0)).toOption.isSome ∧
    (cutSize64 9 9 (looseOnes 1 1 0) (some 9223372036854775806)).toOption.isSome ∧
    (cutSize64 9223372036854775807 9 (looseOnes 2 4611686018427387903 0) (some 0)).toOption.isSome ∧
    (finishOne64 ⟨0, 1⟩ (⟨looseOnes 2 4611686018427387903 0, 0, 2⟩,
      ⟨looseOnes 2 4611686018427387903 0, 0, 0, fun _ => 0⟩)).toOption.isSome := by
  refine ⟨?_, ?_, ?_, ?_, ?_, ?_, ?_⟩ <;> decide +kernel

end PMondriaan
