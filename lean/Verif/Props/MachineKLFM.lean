import Verif.Proofs.MachineKLFM
import Verif.Props.Refine
import Verif.Props.MlPar

/-
Property C102: 64 bits are enough for the refinement on one processor.
-/

namespace PMondriaan

open Spec

/-- C102: if the weights and the costs are not negative, and the total weight, the total cost, the
bounds and the given cut are at most `2 ^ 60`, then no sum or difference of the refinement overflows
(bucket sizes, bucket positions, gains, weights and cuts), and no gain is `LONG_MIN`, the value that
marks locked vertices: the 64-bit program succeeds with the result of the program on integers. -/
theorem C102_refine {H : Hypergraph} (w : WF H) (hc : CostsNonneg H) (hwn : WeightsNonneg H)
    (hb : Bipartitioned H) {C : List Cnt} (hC : CountsExact H C) {fuel : Nat}
    (hf : H.vertices.length < fuel) {max0 max1 : Int} (opts : Options) (rng : Rng)
    (cutSize : Option Int) (hcut : ∀ c, cutSize = some c → 0 ≤ c ∧ c ≤ 2 ^ 60)
    (hcosts : (H.nets.map (·.cost)).sum ≤ 2 ^ 60) (hweights : (H.vertices.map (·.weight)).sum ≤ 2 ^ 60)
    (h0 : -2 ^ 60 ≤ max0 ∧ max0 ≤ 2 ^ 60) (h1 : -2 ^ 60 ≤ max1 ∧ max1 ≤ 2 ^ 60) :
    ∃ r, KLFM64 fuel H C ⟨partWeight H 0, partWeight H 1⟩ max0 max1 opts rng cutSize = .ok r ∧
      KLFM fuel H C ⟨partWeight H 0, partWeight H 1⟩ max0 max1 opts rng cutSize = .ok r := by
  obtain ⟨δ, hd, hδ⟩ : ∃ δ : Int, (-2 ^ 60 ≤ δ ∧ δ ≤ 2 ^ 60) ∧
      (match (motive := Option Int → Prop) cutSize with | none => δ = 0 | some c => c = cutNet (partOf H) H.nets + δ) := by
    clear hf
    revert hcut
    cases cutSize with
    | none => intro _; exact ⟨0, by decide, rfl⟩
    | some c =>
      intro hcut
      have h2 := hcut c rfl
      have h3 := cutNet_fit hc (partOf H)
      exact ⟨c - cutNet (partOf H) H.nets, by omega, by simp only; omega⟩
  have F : Fit64 H δ max0 max1 := ⟨w, hc, hwn, hcosts, hweights, h0, h1, hd⟩
  obtain ⟨r, P1, P', L', h, -⟩ := KLFM_conc w hc hwn (parts01_self w hb) (pinsPerm_self w) hf max0 max1
    opts rng cutSize hδ
  have hs := KLFM_sim F (parts01_self w hb) (pinsPerm_self w) hf opts rng cutSize hδ
  rw [conc_self w, ← counts_self w hC] at h hs
  rw [partWeight_pw 0 w, partWeight_pw 1 w]
  exact ⟨r, hs.trans h, h⟩

/-- C102 for one pass. -/
theorem C102_pass {H : Hypergraph} (w : WF H) (hc : CostsNonneg H) (hwn : WeightsNonneg H)
    (hb : Bipartitioned H) (hs : SortedOnPart H) {C : List Cnt} (hC : CountsExact H C) {fuel : Nat}
    (hf : H.vertices.length < fuel) {max0 max1 : Int} (maxNoGain : Nat) (rng : Rng)
    (hcosts : (H.nets.map (·.cost)).sum ≤ 2 ^ 60) (hweights : (H.vertices.map (·.weight)).sum ≤ 2 ^ 60)
    (h0 : -2 ^ 60 ≤ max0 ∧ max0 ≤ 2 ^ 60) (h1 : -2 ^ 60 ≤ max1 ∧ max1 ≤ 2 ^ 60) :
    ∃ r, KLFMPass64 fuel H C (cutValue .cutNet H) ⟨partWeight H 0, partWeight H 1⟩ max0 max1 maxNoGain rng = .ok r ∧
      KLFMPass fuel H C (cutValue .cutNet H) ⟨partWeight H 0, partWeight H 1⟩ max0 max1 maxNoGain rng = .ok r := by
  have F : Fit64 H 0 max0 max1 := ⟨w, hc, hwn, hcosts, hweights, h0, h1, by decide⟩
  obtain ⟨r, h, -⟩ := C17_KLFM_pass w hc hb hs hC hf max0 max1 maxNoGain rng
  have hS := KLFMPass_sim F (parts01_self w hb) (pinsPerm_self w) (allSplit_self w hb hs) hf
    (cut := cutValue .cutNet H) (by rw [Int.add_zero]; rfl) maxNoGain rng
  rw [conc_self w, ← counts_self w hC] at hS
  rw [partWeight_pw 0 w, partWeight_pw 1 w] at h ⊢
  exact ⟨r, hS.trans h, h⟩

/-- Two vertices in different parts and a net of cost `2 ^ 62`. -/
def heavyNet : Hypergraph :=
  Hypergraph.create 2 1
    [ { id := 0, nets := [0], weight := 1, part := 0 }, { id := 1, nets := [0], weight := 1, part := 1 } ]
    [ { id := 0, vertices := [0, 1], cost := 2 ^ 62, globalSize := 2 } ]

/-- Options with one pass of at most ten moves. -/
def onePass : Options :=
  { sampleSize := 1, maxClustersize := 1, lpMaxIterations := 1, coarseningNrvertices := 1, coarseningMaxrounds := 1,
    klfmMaxPasses := 1, klfmMaxNoGainMoves := 10, klfmParSendMoves := 1, metric := .cutNet, samplingLp := false,
    bisectionRandom := true }

/-- C102: the bound on the costs matters. With one net of cost `2 ^ 62`, which fits in a `long` itself, the
size of the gain buckets, twice the cost and one, does not fit; on integers the refinement succeeds. -/
theorem C102_overflow (rng : Rng) :
    WF heavyNet ∧ CostsNonneg heavyNet ∧ WeightsNonneg heavyNet ∧ Bipartitioned heavyNet ∧
      CountsExact heavyNet [⟨1, 1⟩] ∧ (heavyNet.nets.map (·.cost)).sum < 2 ^ 63 ∧
      KLFM64 3 heavyNet [⟨1, 1⟩] ⟨partWeight heavyNet 0, partWeight heavyNet 1⟩ 2 2 onePass rng none = .error .ub ∧
      ∃ r, KLFM 3 heavyNet [⟨1, 1⟩] ⟨partWeight heavyNet 0, partWeight heavyNet 1⟩ 2 2 onePass rng none = .ok r := by
  have w : WF heavyNet := WF_create (by decide) (by decide) (by decide) (by decide) (by decide) (by decide)
  have hc : CostsNonneg heavyNet := by unfold CostsNonneg; decide
  have hwn : WeightsNonneg heavyNet := by unfold WeightsNonneg; decide
  have hb : Bipartitioned heavyNet := by unfold Bipartitioned; decide
  have hC : CountsExact heavyNet [⟨1, 1⟩] := by unfold CountsExact; decide
  refine ⟨w, hc, hwn, hb, hC, by decide, ?_, ?_⟩
  · rfl
  · obtain ⟨r, h⟩ := C20_KLFM_terminates w hc hwn hb hC 2 2 onePass rng
    exact ⟨r, h 3 (by decide)⟩

/-- Two vertices in different parts, joined by a net of cost 1. -/
def twoJoined (w0 w1 : Int) : Hypergraph :=
  Hypergraph.create 2 1
    [ { id := 0, nets := [0], weight := w0, part := 0 }, { id := 1, nets := [0], weight := w1, part := 1 } ]
    [ { id := 0, vertices := [0, 1], cost := 1, globalSize := 2 } ]

/-- C102: the other bounds matter as well. The given cut can overflow when a gain is subtracted, a weight
bound when a weight is subtracted (in a pass), and a weight when another one is added (while balancing), even if the
numbers given fit in a `long`. -/
theorem C102_overflow_others :
    KLFM64 3 (twoJoined 1 1) [⟨1, 1⟩] ⟨1, 1⟩ 2 2 onePass (fun _ => 0) (some (-2 ^ 63)) = .error .ub ∧
    KLFM64 3 (twoJoined 1 1) [⟨1, 1⟩] ⟨1, 1⟩ (-2 ^ 63) 2 onePass (fun _ => 0) none = .error .ub ∧
    KLFM64 3 (twoJoined 1 1) [⟨1, 1⟩] ⟨1, 1⟩ 2 (-2 ^ 63) onePass (fun _ => 0) none = .error .ub ∧
    KLFM64 3 (twoJoined (2 ^ 62) (2 ^ 62)) [⟨1, 1⟩] ⟨2 ^ 62, 2 ^ 62⟩ 0 (2 ^ 63 - 1) onePass (fun _ => 0) none = .error .ub := by
  refine ⟨?_, ?_, ?_, ?_⟩ <;> exact eq_of_failsWith (by decide +kernel)

/-- Two vertices in part 0 joined by two nets of cost `2^62`. -/
def twiceJoined : Hypergraph :=
  Hypergraph.create 2 2
    [{ id := 0, nets := [0, 1], weight := 1, part := 0 }, { id := 1, nets := [0, 1], weight := 1, part := 0 }]
    [{ id := 0, vertices := [0, 1], cost := 4611686018427387904, globalSize := 2 },
     { id := 1, vertices := [0, 1], cost := 4611686018427387904, globalSize := 2 }]

/-- C102: a gain of `-2^63` fits in 64 bits, but it is the mark of a locked vertex; the 64-bit model
does not accept it. The cost `2^62 - 1` for one of the nets would do. -/
theorem C102_mark : long (-2 ^ 63) = .ok (-2 ^ 63) ∧
    (∀ v ∈ twiceJoined.vertices, GainStructure.gainOf twiceJoined [⟨2, 0⟩, ⟨2, 0⟩] v = .ok (-2 ^ 63) ∧
      GainStructure.gainOf64 twiceJoined [⟨2, 0⟩, ⟨2, 0⟩] v = .error .ub) ∧
    longGain (-2 ^ 63 + 1) = .ok (-2 ^ 63 + 1) := by
  decide +kernel

example : ∃ H C, WF H ∧ CostsNonneg H ∧ WeightsNonneg H ∧ Bipartitioned H ∧ CountsExact H C ∧
    (H.nets.map (·.cost)).sum ≤ 2 ^ 60 ∧ (H.vertices.map (·.weight)).sum ≤ 2 ^ 60 ∧
    0 < (H.nets.map (·.cost)).sum ∧ (partWeight H 0 > 4) :=
  ⟨exampleH, exampleC, exampleH_wf, by unfold CostsNonneg; decide, by unfold WeightsNonneg; decide,
    by unfold Bipartitioned; decide, by unfold CountsExact; decide, by decide, by decide, by decide, by decide⟩

end PMondriaan
