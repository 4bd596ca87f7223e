import Verif.Proofs.MachineMl

/-
C104: bisection on one processor in 64-bit signed numbers.
-/

namespace PMondriaan

open Spec

/-- C104, random bisection: if the weights are not negative and those in the range add up to less
than `2^63`, no addition overflows, for any bounds and any draws. -/
theorem C104_random {H : Hypergraph} (hw : WeightsNonneg H) {s e : Nat} (h2 : e ≤ H.vertices.length)
    (hT : ((slice H.vertices s e).map (·.weight)).sum < 2 ^ 63) (max0 max1 : Int) (labels : Interval) (rng : Rng) :
    bisectRandom64 H max0 max1 s e labels rng = bisectRandom H max0 max1 s e labels rng := by
  unfold bisectRandom64 bisectRandom
  have hsum : ((List.range' s (e - s)).map (weightAt (H.vertices.map (·.weight)))).sum < 2 ^ 63 := by
    have : (List.range' s (e - s)).map (weightAt (H.vertices.map (·.weight))) =
        (slice H.vertices s e).map (·.weight) := by
      apply List.ext_getElem?
      intro j
      unfold slice
      rw [List.getElem?_map, List.getElem?_map, List.getElem?_take, List.getElem?_drop]
      by_cases hj : j < e - s
      · rw [if_pos hj, List.getElem?_range' hj]
        simp only [Option.map_some, Nat.one_mul]
        unfold weightAt
        have hlt : s + j < H.vertices.length := by omega
        rw [List.getElem?_map, List.getElem?_eq_getElem hlt]
        rfl
      · rw [if_neg hj, List.getElem?_eq_none (by rw [List.length_range']; omega)]
        rfl
    rw [this]
    exact hT
  refine randomLoop64_eq max0 max1 labels ?_ _ _ rfl (le_refl _) (le_refl _) (by dsimp only; omega) (by dsimp only; omega)
  intro x hx
  obtain ⟨v, hv, rfl⟩ := List.mem_map.1 hx
  exact hw v hv

/-- C104, the initial partitioning (label propagation and refinement, repeated): if costs and
weights are not negative and both totals and the bounds are at most `2^60`, nothing overflows. -/
theorem C104_initial {shuf : Shuffle} (hsh : ∀ r l, (shuf r l).1.Perm l) {H : Hypergraph} (w : WF H)
    (hc : CostsNonneg H) (hw : WeightsNonneg H) (hcosts : (H.nets.map (·.cost)).sum ≤ 2 ^ 60)
    (hweights : (H.vertices.map (·.weight)).sum ≤ 2 ^ 60) {max0 max1 : Int} (h0 : -2 ^ 60 ≤ max0 ∧ max0 ≤ 2 ^ 60)
    (h1 : -2 ^ 60 ≤ max1 ∧ max1 ≤ 2 ^ 60) {fuel : Nat} (hf : H.vertices.length < fuel) (opts : Options) (rng : Rng) :
    initialPartitioning64 fuel shuf H max0 max1 opts rng = initialPartitioning fuel shuf H max0 max1 opts rng :=
  initialPartitioning64_eq hsh ⟨w, hc, hw, hcosts, hweights, h0, h1⟩ hf opts rng

/-- C104, coarsening: if the weights are not negative and add up to less than `2^63`, no weight of a
cluster and no total of free vertices overflows. -/
theorem C104_coarsen {F : Type} (O : ScoreOps F) {shuf : Shuffle}
    (hsh : ∀ r l, (shuf r l).1.Perm l) {order : List Nat → List Nat} (hord : ∀ l, (order l).Perm l)
    (rank : Nat) {H : Hypergraph} (w : WF H) (hw : WeightsNonneg H) (hT : (H.vertices.map (·.weight)).sum < 2 ^ 63)
    (opts : Options) (rng : Rng) :
    coarsenSeq64 O shuf order rank H {} opts rng = coarsenSeq O shuf order rank H {} opts rng :=
  coarsenSeq64_eq O hsh hord rank w hw hT opts rng

/-- C104, the multilevel bisection: under the conditions of C50, if the weights in the range add up
to at most `2^60` and the bounds are not negative, at most `2^60` and have a product below `2^63`,
the program in 64 bits succeeds with the result of the program on integers. -/
theorem C104_multilevel {F : Type} {E : Env F} {N : Nat} (hE : E.Ok N) {H : Hypergraph} (w : WF H)
    (hN : ∀ n ∈ H.nets, n.id < N) (hnets : H.nets.length < 2147483648)
    (hpos : ∀ v ∈ H.vertices, 0 < v.weight) (hf : H.vertices.length < E.fuel) {s e : Nat}
    (h1 : s ≤ e) (h2 : e ≤ H.vertices.length) (labels : Interval)
    (hl : labels.low ≠ labels.high) (opts : Options) {max0 max1 : Int} (hm : ModerateBounds max0 max1)
    (hT : ((slice H.vertices s e).map (·.weight)).sum ≤ 2 ^ 60) (rng : Rng) :
    ∃ r, bisectMultilevel64 E H opts max0 max1 s e labels rng = .ok r ∧
      bisectMultilevel E H opts max0 max1 s e labels rng = .ok r ∧
      Relabels s e labels.low labels.high H r.H ∧
      r.w0 = rangeWeight r.H s e labels.low ∧ r.w1 = rangeWeight r.H s e labels.high := by
  obtain ⟨r, r1, r2, r3, r4⟩ := C50_partial hE w hN hnets hpos hf h1 h2 labels hl opts max0 max1 rng
  exact ⟨r, by rw [bisectMultilevel64_eq hE w hN hnets hpos hf h1 h2 labels hl opts hm hT rng, r1], r1, r2, r3, r4⟩

/-- C104, either way of bisecting: bounds and a total weight below `3 * 10^9` are enough. -/
theorem C104_bisect {F : Type} {E : Env F} {N : Nat} (hE : E.Ok N) {H : Hypergraph} (w : WF H)
    (hN : ∀ n ∈ H.nets, n.id < N) (hnets : H.nets.length < 2147483648)
    (hpos : ∀ v ∈ H.vertices, 0 < v.weight) (hf : H.vertices.length < E.fuel) {s e : Nat}
    (h1 : s ≤ e) (h2 : e ≤ H.vertices.length) (labels : Interval)
    (hl : labels.low ≠ labels.high) (opts : Options) {max0 max1 : Int}
    (h0 : 0 ≤ max0 ∧ max0 ≤ 3000000000) (h3 : 0 ≤ max1 ∧ max1 ≤ 3000000000)
    (hT : (H.vertices.map (·.weight)).sum ≤ 3000000000) (rng : Rng) :
    bisectOne64 E H opts max0 max1 s e labels rng = bisectOne E H opts max0 max1 s e labels rng := by
  have hw : WeightsNonneg H := fun v hv => le_of_lt (hpos v hv)
  have hs := slice_sum_le hw s e
  have hprod : max0 * max1 ≤ 3000000000 * 3000000000 := mul_le_mul h0.2 h3.2 h3.1 (by decide)
  unfold bisectOne64 bisectOne
  rw [C104_random hw h2 (by omega) max0 max1 labels rng]
  rw [bisectMultilevel64_eq hE w hN hnets hpos hf h1 h2 labels hl opts
    ⟨h0.1, h3.1, by omega, by omega, by omega⟩ (by omega) rng]

/-- C104: a cut or an imbalance of `LONG_MAX` fits in 64 bits, but it is the mark for "nothing yet" in the initial
partitioning; the 64-bit model accepts exactly the other values. -/
theorem C104_mark (x : Int) : longMark x = .ok x ↔ long x = .ok x ∧ x ≠ 9223372036854775807 := by
  unfold longMark long
  constructor
  · intro h
    split at h
    · rw [if_pos (by omega)]
      exact ⟨rfl, by omega⟩
    · cases h
  · rintro ⟨h, hx⟩
    split at h
    · rw [if_pos (by omega)]
    · cases h

/-- The hypergraph of the examples, bisected with one coarsening level in 64 bits. -/
example : (bisectMultilevel64 (exampleEnv 6) exampleH
      { exampleOpts with coarseningMaxrounds := 1, maxClustersize := 1 } 6 6 0 4 ⟨4, 5⟩
      (fun n => n)).toOption.map
      (fun r => (r.H.vertices.map (·.part), r.w0, r.w1)) = some ([4, 4, 4, 5], 6, 4) :=
  by decide +kernel

/-- Two heavy vertices joined by a net, and one free vertex. -/
def heavyTriple (x : Int) : Hypergraph :=
  Hypergraph.create 3 1
    [{ id := 0, nets := [0], weight := x, part := -1 }, { id := 1, nets := [0], weight := x, part := -1 },
     { id := 2, nets := [], weight := 1, part := -1 }]
    [{ id := 0, vertices := [0, 1], cost := 1, globalSize := 2 }]

/-- C104 needs its conditions: two weights of `2^62` in one part overflow the random bisection and
the coarsening, and with weights of `4 * 10^9` and bounds of `9 * 10^9` a product in the placement of
the free vertex overflows in the multilevel bisection; on integers all three succeed. -/
theorem C104_overflow :
    (bisectRandom64 (heavyTriple 4611686018427387904) 9000000000000000000 9000000000000000000 0 3 ⟨0, 1⟩ (fun _ => 0) = .error .ub ∧
      (bisectRandom (heavyTriple 4611686018427387904) 9000000000000000000 9000000000000000000 0 3 ⟨0, 1⟩ (fun _ => 0)).toOption.isSome) ∧
    (coarsenSeq64 plainScores (fun r l => (l, r)) id 0 (heavyTriple 4611686018427387904) {}
        { exampleOpts with maxClustersize := 1 } (fun n => n) = .error .ub ∧
      (coarsenSeq plainScores (fun r l => (l, r)) id 0 (heavyTriple 4611686018427387904) {}
        { exampleOpts with maxClustersize := 1 } (fun n => n)).toOption.isSome) ∧
    (bisectMultilevel64 (exampleEnv 1) (heavyTriple 4000000000) exampleOpts 9000000000 9000000000 0 3 ⟨0, 1⟩ (fun n => n) =
        .error .ub ∧
      (bisectMultilevel (exampleEnv 1) (heavyTriple 4000000000) exampleOpts 9000000000 9000000000 0 3 ⟨0, 1⟩
        (fun n => n)).toOption.isSome) :=
  ⟨⟨eq_of_failsWith (by decide +kernel), by decide +kernel⟩, ⟨eq_of_failsWith (by decide +kernel), by decide +kernel⟩,
    ⟨eq_of_failsWith (by decide +kernel), by decide +kernel⟩⟩

/-- One vertex of weight 1. -/
def oneLight : Hypergraph :=
  Hypergraph.create 1 0 [{ id := 0, nets := [], weight := 1, part := 0 }] []

/-- A state of the label propagation on one vertex with the given rooms. -/
def roomState (r0 r1 : Int) : LPBState :=
  { L := [0], C := [], r0 := r0, r1 := r1, rng := fun _ => 0, change := true }

/-- C104: each sum and difference can leave the range on its own: in the random bisection the test
and the update, in the label propagation the test and the update of the random start, the test and
both updates of a sweep, the weight of a part, the weight of a cluster and the total of the free
vertices. -/
theorem C104_overflow_steps :
    randomStep64 0 0 ⟨0, 1⟩ { H := oneLight, w0 := 9223372036854775807, w1 := 0, rng := fun _ => 0 } 0 = .error .ub ∧
    randomStep64 0 0 ⟨0, 1⟩ { H := oneLight, w0 := 0, w1 := 9223372036854775807, rng := fun _ => 0 } 0 = .error .ub ∧
    lpbStartStep64 oneLight (roomState (-9223372036854775808) 5) 0 = .error .ub ∧
    lpbStartStep64 oneLight (roomState 0 (-9223372036854775808)) 0 = .error .ub ∧
    lpbChoose64 (roomState 0 (-9223372036854775808)) 0 1 (3, [1]) = .error .ub ∧
    lpbChoose64 (roomState (-9223372036854775808) 0) 1 1 (3, [0]) = .error .ub ∧
    lpbMove64 (roomState 9223372036854775807 5) 0 1 = .error .ub ∧
    lpbMove64 (roomState 5 (-9223372036854775808)) 0 1 = .error .ub ∧
    lpbMove64 (roomState 5 9223372036854775807) 1 1 = .error .ub ∧
    lpbMove64 (roomState (-9223372036854775808) 5) 1 1 = .error .ub ∧
    weightPart64 (heavyTriple 4611686018427387904) (-1) = .error .ub ∧
    Contraction.collectFree64 ([], 9223372036854775807) ⟨0, [], 1, 0⟩ = .error .ub ∧
    contractMatch64 oneLight 0 0 (oneLight, ⟨[7], [[]], [], 0, 0⟩, ⟨7, [], 9223372036854775807, -1⟩) 0 = .error .ub := by
  refine ⟨?_, ?_, ?_, ?_, ?_, ?_, ?_, ?_, ?_, ?_, ?_, ?_, ?_⟩ <;> exact eq_of_failsWith (by decide +kernel)

end PMondriaan
