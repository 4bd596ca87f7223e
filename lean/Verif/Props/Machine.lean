import Verif.Proofs.Machine
import Verif.Props.Free

/-
Property C81: 64 bits are enough for weights, cuts and the placement of free vertices, as long as
the products fit.
-/

namespace PMondriaan

open Spec Contraction

/-- C81 for the sums of weights: if no weight is negative and the total weight fits in a `long`, then
no addition overflows. -/
theorem C81_weights {H : Hypergraph} (hw : WeightsNonneg H)
    (hT : (H.vertices.map (·.weight)).sum < 2 ^ 63) (k : Nat) :
    totalWeight64 H = .ok H.totalWeight ∧ weightAllParts64 H k = H.weightAllParts k :=
  ⟨totalWeight64_eq hw hT, weightAllParts64_eq hw hT k⟩

/-- C81 for the global part weights. -/
theorem C81_global_weights {Hs : List Hypergraph} (hw : ∀ H ∈ Hs, WeightsNonneg H)
    (hT : (Hs.map (fun H => (H.vertices.map (·.weight)).sum)).sum < 2 ^ 63) {k : Nat}
    (hp : ∀ H ∈ Hs, ∀ v ∈ H.vertices, 0 ≤ v.part ∧ v.part < k) :
    globalWeightParts64 Hs k = globalWeightParts Hs k := globalWeightParts64_eq hw hT hp

/-- C81 for the imbalance: it multiplies the largest part weight by `k`, so the total weight times
`k` must fit. -/
theorem C81_load_balance (rnd : ℚ → ℚ) {H : Hypergraph} (hw : WeightsNonneg H) {k : Nat} (hk : 1 ≤ k)
    (hT : (H.vertices.map (·.weight)).sum * k < 2 ^ 63)
    (hp : ∀ v ∈ H.vertices, 0 ≤ v.part ∧ v.part < k) :
    loadBalance64 rnd H k = loadBalance rnd H k := loadBalance64_eq rnd hw hk hT hp

/-- C81 for the cut, with either metric. -/
theorem C81_cutsize {H : Hypergraph} (hc : CostsNonneg H) {metric : Metric}
    (hT : (H.nets.map (netLimit metric)).sum < 2 ^ 63) : cutsize64 H metric = cutsize H metric :=
  cutsize64_eq hc hT

/-- C81 for the placement of free vertices on one processor. What is missing: it is not enough that
the total weight fits in a `long`; the product of the two weight bounds must fit as well. -/
theorem C81_partial {srt : List (Nat × Int) → List (Nat × Int)} (hsrt : ∀ l, (srt l).Perm l)
    {max0 max1 : Int} (m0 : 0 ≤ max0) (m1 : 0 ≤ max1) (hm : max0 * max1 < 2 ^ 63) {C : Contraction}
    (hf : ∀ f ∈ C.free, 0 ≤ f.2) {H : Hypergraph} (hb : Bipartitioned H) (hw : WeightsNonneg H)
    (hT : (H.vertices.map (·.weight)).sum + (C.free.map (·.2)).sum < 2 ^ 63) (rng : Rng) :
    assignFree64 srt C H max0 max1 rng = assignFree srt C H max0 max1 rng :=
  assignFree64_eq hsrt m0 m1 hm hf hb hw hT rng

/-- C81 for the placement of free vertices on several processors. What is missing: the products of
the total weight and of either bound, and of the two bounds, must fit. -/
theorem C81_distributed_partial {srt : List (Nat × Int) → List (Nat × Int)} (hsrt : ∀ l, (srt l).Perm l)
    {S : List CProc} (hS : FreeReady S) (hf : ∀ s ∈ S, ∀ f ∈ s.1.free, 0 ≤ f.2)
    (hw : ∀ s ∈ S, WeightsNonneg s.2) {max0 max1 : Int} (m0 : 0 ≤ max0) (m1 : 0 ≤ max1)
    (hm : max0 * max1 < 2 ^ 63) (hm' : max0 + max1 < 2 ^ 63) (hT : worldWeight S < 2 ^ 63)
    (t0 : worldWeight S * max0 < 2 ^ 63) (t1 : worldWeight S * max1 < 2 ^ 63) (rngs : Nat → Rng) :
    assignFreePar64 srt S max0 max1 rngs = assignFreePar srt S max0 max1 rngs :=
  assignFreePar64_eq hsrt hS hf hw m0 m1 hm hm' hT t0 t1 rngs

/-- C81 with a single number: a total weight and bounds of at most `3 * 10 ^ 9` are always safe. -/
theorem C81_three_billion {srt : List (Nat × Int) → List (Nat × Int)} (hsrt : ∀ l, (srt l).Perm l)
    {S : List CProc} (hS : FreeReady S) (hf : ∀ s ∈ S, ∀ f ∈ s.1.free, 0 ≤ f.2)
    (hw : ∀ s ∈ S, WeightsNonneg s.2) {max0 max1 : Int} (m0 : 0 ≤ max0) (m1 : 0 ≤ max1)
    (l0 : max0 ≤ 3000000000) (l1 : max1 ≤ 3000000000) (hT : worldWeight S ≤ 3000000000)
    (rngs : Nat → Rng) :
    assignFreePar64 srt S max0 max1 rngs = assignFreePar srt S max0 max1 rngs := by
  have key : ∀ a b : Int, 0 ≤ b → a ≤ 3000000000 → b ≤ 3000000000 → a * b < 2 ^ 63 := by
    intro a b hb h1 h2
    have e1 : a * b ≤ 3000000000 * b := mul_le_mul_of_nonneg_right h1 hb
    omega
  exact C81_distributed_partial hsrt hS hf hw m0 m1 (key _ _ m1 l0 l1) (by omega) (by omega)
    (key _ _ m0 hT l0) (key _ _ m1 hT l1) rngs

/-- C81, when it fails: if the first free vertex fits into both parts, and the product of the weight of
part 0 and the bound of part 1 does not fit in a `long`, then the placement overflows. -/
theorem C81_overflow {srt : List (Nat × Int) → List (Nat × Int)} {C : Contraction} {f : Nat × Int}
    {fs : List (Nat × Int)} (hs : srt C.free = f :: fs) (hfree : C.globalFree ≠ 0) {H : Hypergraph}
    (hb : Bipartitioned H) (hw : WeightsNonneg H) (hf : 0 ≤ f.2) {max0 max1 : Int}
    (hT : (H.vertices.map (·.weight)).sum + f.2 < 2 ^ 63) (h0 : partWeight H 0 + f.2 ≤ max0)
    (h1 : partWeight H 1 + f.2 ≤ max1) (hbig : 2 ^ 63 ≤ partWeight H 0 * max1) (rng : Rng) :
    assignFree64 srt C H max0 max1 rng = .error .ub := by
  have n0 := partWeight_nonneg' hw 0
  have n1 := partWeight_nonneg' hw 1
  have hsum := bip_sum hb
  unfold assignFree64
  rw [weightAllParts64_eq hw (by omega), weightAllParts2 hb]
  have hv0 : vget [partWeight H 0, partWeight H 1] 0 = .ok (partWeight H 0) := rfl
  have hv1 : vget [partWeight H 0, partWeight H 1] 1 = .ok (partWeight H 1) := rfl
  simp only [ok_bind, hv0, hv1]
  rw [if_neg hfree]
  unfold assignGreedy64
  rw [hs, List.foldlM_cons]
  unfold assignStep64 choosePart64
  dsimp only
  rw [long_nat (by omega) (by omega), long_nat (by omega) (by omega)]
  simp only [ok_bind]
  rw [if_neg (by omega), if_neg (by omega), if_neg (by omega), long_ub hbig]
  rfl

/-- Two vertices of weight `2 ^ 32`, one in each part. -/
def bigPair : Hypergraph :=
  Hypergraph.create 2 1 [{ id := 0, nets := [0], weight := 2 ^ 32, part := 0 },
    { id := 1, nets := [0], weight := 2 ^ 32, part := 1 }] [{ id := 0, vertices := [0, 1], cost := 1 }]

/-- The free vertex besides them. -/
def bigFree : Contraction := { free := [(2, 1)], localFree := 1, globalFree := 1 }

/-- C81 is false: all weights, their sum and the bounds are far below `2 ^ 63`, but the products that
place the free vertex are not. -/
theorem C81_false : WF bigPair ∧ Bipartitioned bigPair ∧
    (bigPair.vertices.map (·.weight)).sum + (bigFree.free.map (·.2)).sum < 2 ^ 34 ∧
    assignFree64 id bigFree bigPair (2 ^ 33) (2 ^ 33) (fun _ => 0) = .error .ub ∧
    (∃ a, assignFree id bigFree bigPair (2 ^ 33) (2 ^ 33) (fun _ => 0) = .ok a) := by
  have w : WF bigPair :=
    WF_create (by decide) (by decide) (by decide) (by decide) (by decide) (by decide)
  have hb : Bipartitioned bigPair := by decide
  refine ⟨w, hb, by decide, ?_, ?_⟩
  · exact C81_overflow (f := (2, 1)) (fs := []) rfl (by decide) hb (by unfold WeightsNonneg; decide) (by decide)
      (by decide) (by decide) (by decide) (by decide) _
  · obtain ⟨a, l, h, -⟩ := assignFree_ok (srt := id) (fun l => List.Perm.refl l) (C := bigFree) w hb
      (2 ^ 33) (2 ^ 33) (fun _ => 0) (by decide) (by decide)
    exact ⟨a, h⟩

/-- The three processors of C30 are far from the limit. -/
example : assignFreePar64 sortDesc freeProcs 8 8 (fun _ _ => 1) =
    assignFreePar sortDesc freeProcs 8 8 (fun _ _ => 1) ∧
    freeParOutcome freeProcs 8 8 = some
      [(9, 7, [(0, 0), (10, 0)]), (9, 7, [(1, 1), (12, 0), (11, 1)]), (9, 7, [(13, 1)])] :=
  ⟨C81_three_billion sortDesc_perm freeProcs_ready (by decide) (by unfold WeightsNonneg; decide)
    (by decide) (by decide) (by decide) (by decide) (by decide) _, by decide +kernel⟩

/-- A product beyond 64 bits in the imbalance: one vertex of weight `2 ^ 62` and two parts. -/
example : loadBalance64 id (Hypergraph.create 1 0 [{ id := 0, nets := [], weight := 2 ^ 62, part := 0 }] [])
    2 = .error .ub := by
  decide +kernel

/-- The cut wraps around with the lambda metric: three pins in three parts at a cost of `2 ^ 62`. -/
example : cutsize64 (Hypergraph.create 3 1 [{ id := 0, nets := [0], part := 0 },
    { id := 1, nets := [0], part := 1 }, { id := 2, nets := [0], part := 2 }]
    [{ id := 0, vertices := [0, 1, 2], cost := 2 ^ 62 }]) .lambdaMinusOne = .ok (-2 ^ 63) := by
  decide +kernel

end PMondriaan
