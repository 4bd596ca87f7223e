import Verif.Proofs.Sample
import Verif.Proofs.InitPart

/-
Properties of label propagation (C21, C22), initial partitioning (C23) and sampling (C24, C25).
-/

namespace PMondriaan

open Spec

/-! ### C21 -/

/-- C21: `label_propagation_bisect` never goes out of bounds; it gives one 0/1 label to every vertex
and leaves in `C` the exact counts of these labels. If both labels are within bounds after the
random start, they are within bounds at the end. -/
theorem C21_bisect {shuf : Shuffle} (hsh : ∀ r l, (shuf r l).1.Perm l) {H : Hypergraph} (w : WF H)
    (maxIter : Nat) (max0 max1 : Int) (rng : Rng) :
    ∃ s0 s, lpbStart H (List.replicate H.nets.length ⟨0, 0⟩) max0 max1 rng = .ok s0 ∧
      lpBisect shuf H (List.replicate H.nets.length ⟨0, 0⟩) maxIter max0 max1 rng = .ok s ∧
      s.L.length = H.vertices.length ∧ (∀ x ∈ s.L, x = 0 ∨ x = 1) ∧
      CountsExact (withLabels H s.L) s.C ∧
      (WeightsNonneg H → Balanced (withLabels H s0.L) max0 max1 →
        Balanced (withLabels H s.L) max0 max1) := by
  obtain ⟨s0, s, h1, h2, h3, h4, h5, -⟩ := lpBisect_ok hsh w maxIter max0 max1 rng
  refine ⟨s0, s, h1, h2, h4.len, h4.labels, ?_, ?_⟩
  · rw [h4.counts]; exact withLabels_counts w h4.len
  · intro hw hb
    unfold Balanced at *
    rw [withLabels_weight, withLabels_weight] at *
    have := h5 hw ⟨by have := h3.room0; omega, by have := h3.room1; omega⟩
    obtain ⟨a, b⟩ := this
    have := h4.room0
    have := h4.room1
    omega

/-- C21: when the bounds leave room for the heaviest vertex (total weight plus heaviest weight is at
most the sum of the bounds plus one), both labels are always within bounds. -/
theorem C21_room {shuf : Shuffle} (hsh : ∀ r l, (shuf r l).1.Perm l) {H : Hypergraph} (w : WF H)
    (hw : WeightsNonneg H) (maxIter : Nat) {max0 max1 : Int} (h0 : 0 ≤ max0) (h1 : 0 ≤ max1)
    (hroom : ∀ v ∈ H.vertices, allWeight H + v.weight ≤ max0 + max1 + 1) (rng : Rng) :
    ∃ s, lpBisect shuf H (List.replicate H.nets.length ⟨0, 0⟩) maxIter max0 max1 rng = .ok s ∧
      Balanced (withLabels H s.L) max0 max1 := by
  obtain ⟨s0, s, -, g2, g3, g4, g5, g6, -⟩ := lpBisect_ok hsh w maxIter max0 max1 rng
  obtain ⟨a, b⟩ := g5 hw (g6 hw h0 h1 hroom)
  refine ⟨s, g2, ?_⟩
  have := g4.room0
  have := g4.room1
  unfold Balanced
  rw [withLabels_weight, withLabels_weight]
  omega

/-- C21: with unit weights and bounds that sum to at least the total weight, both labels are always
within bounds. -/
theorem C21_unit_weights {shuf : Shuffle} (hsh : ∀ r l, (shuf r l).1.Perm l) {H : Hypergraph}
    (w : WF H) (hw : ∀ v ∈ H.vertices, v.weight = 1) (maxIter : Nat) {max0 max1 : Int}
    (h0 : 0 ≤ max0) (h1 : 0 ≤ max1) (hsum : allWeight H ≤ max0 + max1) (rng : Rng) :
    ∃ s, lpBisect shuf H (List.replicate H.nets.length ⟨0, 0⟩) maxIter max0 max1 rng = .ok s ∧
      Balanced (withLabels H s.L) max0 max1 :=
  C21_room hsh w (fun v hv => by rw [hw v hv]; decide) maxIter h0 h1
    (fun v hv => by rw [hw v hv]; omega) rng

/-- Two vertices of weight 2 with bounds 3 and 1: the bounds sum to the total weight. -/
def heavyPair : Hypergraph :=
  Hypergraph.create 2 1 [{ id := 0, nets := [0], weight := 2 }, { id := 1, nets := [0], weight := 2 }]
    [{ id := 0, vertices := [0, 1], cost := 1, globalSize := 2 }]

theorem heavyPair_wf : WF heavyPair :=
  WF_create (by decide) (by decide) (by decide) (by decide) (by decide) (by decide)

/-- Bounds that sum to the total weight are not enough in general: label propagation may end with a
label over its bound. -/
theorem C21_room_needed : ¬ ∀ (shuf : Shuffle) (H : Hypergraph), (∀ r l, (shuf r l).1.Perm l) →
    WF H → WeightsNonneg H → ∀ (max0 max1 : Int) (maxIter : Nat) (rng : Rng), 0 ≤ max0 → 0 ≤ max1 →
    allWeight H ≤ max0 + max1 → ∀ s,
    lpBisect shuf H (List.replicate H.nets.length ⟨0, 0⟩) maxIter max0 max1 rng = .ok s →
    Balanced (withLabels H s.L) max0 max1 := by
  intro h
  have := h (fun r l => (l, r)) heavyPair (fun _ _ => List.Perm.refl _) heavyPair_wf
    (by unfold WeightsNonneg; decide) 3 1 0 (fun _ => 0) (by decide) (by decide) (by decide) _ rfl
  revert this
  unfold Balanced
  decide

example : WF exampleH ∧ WeightsNonneg exampleH ∧
    (∀ v ∈ exampleH.vertices, allWeight exampleH + v.weight ≤ 7 + 7 + 1) ∧
    ∃ s, lpBisect (fun r l => (l.reverse, r)) exampleH (List.replicate 3 ⟨0, 0⟩) 3 7 7 (fun n => n) =
      .ok s ∧ s.L = [0, 1, 0, 0] ∧ s.C = [⟨2, 1⟩, ⟨3, 0⟩, ⟨2, 1⟩] :=
  ⟨exampleH_wf, by unfold WeightsNonneg; decide, by decide, _, rfl, by decide, by decide⟩

/-! ### C22 -/

/-- C22: `label_propagation` never goes out of bounds; every label is below `l`, and every label
keeps at least the smaller of `min_size` and the number of vertices it had after the random
start. -/
theorem C22_label_propagation {shuf : Shuffle} (hsh : ∀ r l, (shuf r l).1.Perm l) {H : Hypergraph}
    (w : WF H) {l : Nat} (hl : 1 ≤ l) (maxIter : Nat) (minSize : Int) (rng : Rng) :
    ∃ s0 L rng', lpStart H l rng = .ok s0 ∧
      labelPropagation shuf H l maxIter minSize rng = .ok (L, rng') ∧
      L.length = H.vertices.length ∧ (∀ x ∈ L, x < l) ∧
      ∀ a, min minSize (s0.L.count a : Int) ≤ (L.count a : Int) := by
  obtain ⟨s0, s, h1, h2, -, h4, h5, -⟩ := labelPropagation_ok hsh w hl maxIter minSize rng
  exact ⟨s0, s.L, s.rng, h1, h2, h4.len, h4.labels, h5⟩

/-- C22: with `min_size` at least 1, each label used by the random start is still used. -/
theorem C22_labels_kept {shuf : Shuffle} (hsh : ∀ r l, (shuf r l).1.Perm l) {H : Hypergraph}
    (w : WF H) {l : Nat} (hl : 1 ≤ l) (maxIter : Nat) {minSize : Int} (hm : 1 ≤ minSize)
    (rng : Rng) :
    ∃ s0 L rng', lpStart H l rng = .ok s0 ∧
      labelPropagation shuf H l maxIter minSize rng = .ok (L, rng') ∧ ∀ a ∈ s0.L, a ∈ L := by
  obtain ⟨s0, L, r, h1, h2, -, -, h5⟩ := C22_label_propagation hsh w hl maxIter minSize rng
  refine ⟨s0, L, r, h1, h2, ?_⟩
  intro a ha
  have hp : 0 < s0.L.count a := List.count_pos_iff.2 ha
  have := h5 a
  apply List.count_pos_iff.1
  omega

/-- Without labels the first step divides by zero. -/
theorem C22_no_labels {shuf : Shuffle} {H : Hypergraph} (h : H.vertices ≠ []) (maxIter : Nat)
    (minSize : Int) (rng : Rng) :
    labelPropagation shuf H 0 maxIter minSize rng = .error .ub := by
  have hpos : 0 < H.vertices.length := List.length_pos_of_ne_nil h
  obtain ⟨n, hn⟩ : ∃ n, H.vertices.length = n + 1 := ⟨H.vertices.length - 1, by omega⟩
  unfold labelPropagation lpStart
  rw [hn, List.range_succ_eq_map, List.foldlM_cons]
  rfl

example : ∃ L r, labelPropagation (fun r l => (l.reverse, r)) exampleH 3 3 1 (fun n => n) =
    .ok (L, r) ∧ L = [0, 1, 2, 1] := ⟨_, _, rfl, by decide⟩

/-! ### C23 -/

/-- C23: `initial_partitioning` never fails; it runs ten rounds of label propagation and `KLFM`, the
labelling left in `H` is the labelling after one of the rounds, and the returned value is its
cutsize. If some round is balanced, the result is balanced and no balanced round has a smaller
cutsize; otherwise no round has a smaller excess over the bounds. -/
theorem C23_initial_partitioning {shuf : Shuffle} (hsh : ∀ r l, (shuf r l).1.Perm l)
    {H : Hypergraph} (w : WF H) (hc : CostsNonneg H) (hwn : WeightsNonneg H) {fuel : Nat}
    (hf : H.vertices.length < fuel) (opts : Options) (max0 max1 : Int) (rng : Rng) :
    ∃ (H' : Hypergraph) (c : Int) (rng' : Rng) (rs : List PassResult),
      initialPartitioning fuel shuf H max0 max1 opts rng = .ok (H', some c, rng') ∧
      c = cutValue .cutNet H' ∧ SameUpToParts H H' ∧ WF H' ∧ Bipartitioned H' ∧
      rs.length = 10 ∧ Rounds (ipRound fuel shuf opts max0 max1) H rng rs ∧
      (∃ r ∈ rs, H'.vertices = r.H.vertices) ∧
      ((∃ r ∈ rs, Balanced r.H max0 max1) → Balanced H' max0 max1) ∧
      (∀ r ∈ rs, Balanced r.H max0 max1 → c < cutValue .cutNet r.H ∨
        (c = cutValue .cutNet r.H ∧ excess H' max0 max1 ≤ excess r.H max0 max1)) ∧
      ((∀ r ∈ rs, ¬ Balanced r.H max0 max1) →
        ∀ r ∈ rs, excess H' max0 max1 ≤ excess r.H max0 max1) := by
  obtain ⟨s, rs, h1, h2, h3, h4, h5, h6, h7⟩ := ipLoop_ok hsh hc hwn hf opts max0 max1
    (List.range 10)
    { H := H, rng := rng, L := List.replicate H.vertices.length 0, cut := none, imb := none } [] w
    (SameUpToParts.rfl' H) (Or.inl ⟨rfl, rfl, rfl⟩) (by simp)
  simp only [List.nil_append] at h4 h5
  rcases h4 with ⟨h, -⟩ | ⟨b, hb, hL, hcut, -⟩
  · rw [h] at h2; simp at h2
  have hbok := h5 b hb.mem
  have hlen : s.L.length = s.H.vertices.length := by
    rw [hL, List.length_map, hbok.same.vlen, h7.vlen]
  have hsame : SameUpToParts H (withLabels s.H s.L) := h7.trans (withLabels_same h6 hlen)
  have hparts : (withLabels s.H s.L).vertices.map (·.part) = b.H.vertices.map (·.part) := by
    rw [← hL]
    unfold withLabels
    simp only
    apply List.ext_getElem?
    intro i
    rw [List.getElem?_map, List.getElem?_zipWith]
    cases hx : s.H.vertices[i]? with
    | none =>
      rw [List.getElem?_eq_none_iff] at hx
      rw [List.getElem?_eq_none (by omega)]
      rfl
    | some v =>
      cases hy : s.L[i]? with
      | none => rfl
      | some y => rfl
  have hsb : SameUpToParts b.H (withLabels s.H s.L) := hbok.same.symm.trans hsame
  have hv : (withLabels s.H s.L).vertices = b.H.vertices := hsb.vertices_eq hparts
  have hcv : cutValue .cutNet (withLabels s.H s.L) = b.cut := by
    rw [hbok.cut]; exact hsb.cutValue_eq hv _
  have hexc : excess (withLabels s.H s.L) max0 max1 = excess b.H max0 max1 := by
    unfold excess
    rw [SameUpToParts.partWeight_eq hv, SameUpToParts.partWeight_eq hv]
  refine ⟨withLabels s.H s.L, b.cut, s.rng, rs, ?_, hcv.symm, hsame, withLabels_wf h6 hlen, ?_,
    by simpa using h2, h3, ⟨b, hb.mem, hv⟩, ?_, ?_, ?_⟩
  · unfold initialPartitioning
    rw [h1, ok_bind, setPartsFrom_ok hlen, ok_bind, hcut]
    rfl
  · intro v hvm
    rw [hv] at hvm
    exact hbok.bip v hvm
  · intro h
    rw [balanced_iff, hexc, ← balanced_iff]
    exact hb.balanced h
  · intro r hr hbal
    rw [hexc, ← (h5 r hr).cut]
    exact hb.least r hr hbal
  · intro h r hr
    rw [hexc]
    exact hb.unbalanced h r hr

/-- Options used in examples. -/
def exampleOpts : Options :=
  { sampleSize := 2, maxClustersize := 3, lpMaxIterations := 2, coarseningNrvertices := 2,
    coarseningMaxrounds := 2, klfmMaxPasses := 2, klfmMaxNoGainMoves := 5, klfmParSendMoves := 1,
    metric := .cutNet, samplingLp := false, bisectionRandom := false }

example : WF exampleH ∧ CostsNonneg exampleH ∧ WeightsNonneg exampleH ∧
    (initialPartitioning 5 (fun r l => (l, r)) exampleH 6 6 exampleOpts (fun n => n)).toOption.map
      (fun x => (x.1.vertices.map (·.part), x.2.1)) = some ([1, 1, 0, 0], some 8) :=
  ⟨exampleH_wf, by unfold CostsNonneg; decide, by unfold WeightsNonneg; decide, by decide +kernel⟩

/-! ### C24 -/

/-- C24: `sample_random` returns exactly min(ns, |V|) strictly increasing indices below |V|, for
every random stream and every comparison `acc` (of `rng()/M` with `s_left/size`) that holds for the
draws of the stream when `s_left = size`. -/
theorem C24_sample_random {acc : Nat → Nat → Nat → Bool} {H : Hypergraph} (hH : H.vertices ≠ [])
    (ns : Nat) {rng : Rng} (hacc : ∀ i s, 0 < s → acc (rng i) s s = true) :
    ∃ l r, sampleRandom acc H ns rng = .ok (l, r) ∧ l.length = min ns H.vertices.length ∧
      l.Pairwise (· < ·) ∧ ∀ x ∈ l, x < H.vertices.length := by
  have hpos : 0 < H.vertices.length := List.length_pos_of_ne_nil hH
  unfold sampleRandom
  rw [if_neg (by omega)]
  by_cases h : ns > H.vertices.length
  · rw [if_pos h]
    refine ⟨_, _, rfl, by simp; omega, List.pairwise_lt_range, by simp⟩
  · rw [if_neg h]
    obtain ⟨l, r, h1, h2, h3, h4⟩ := sampleLoop_ok H.vertices.length ns 0 rng (by omega) hacc
    exact ⟨l, r, h1, by omega, h3, fun x hx => by have := h4 x hx; omega⟩

/-- The exact comparison of fractions satisfies the hypothesis of C24 when the draws are at most `M`. -/
theorem C24_exact_comparison (M : Nat) {rng : Rng} (hr : ∀ i, rng i ≤ M) : ∀ i s : Nat, 0 < s →
    (fun d left size => decide (d * size ≤ left * M)) (rng i) s s = true := by
  intro i s _
  simp only [decide_eq_true_eq]
  rw [Nat.mul_comm]
  exact Nat.mul_le_mul_left s (hr i)

/-- An empty hypergraph fails the first assert. -/
theorem C24_empty (acc : Nat → Nat → Nat → Bool) {H : Hypergraph} (hH : H.vertices = []) (ns : Nat)
    (rng : Rng) : sampleRandom acc H ns rng = .error .abort := by
  unfold sampleRandom
  rw [hH]
  rfl

example : ∃ r, sampleRandom (fun d left size => decide (d * size ≤ left * 10)) exampleH 2
    (fun i => 9 - i) = .ok ([2, 3], r) := ⟨_, rfl⟩

/-! ### C25 -/

theorem used_card {k : Nat} {labels : List Nat} (hk : ∀ x ∈ labels, x < k) :
    (k : Int) - ((((List.range k).map (fun a => labels.count a)).filter (· = 0)).length : Int) =
      labels.dedup.length := by
  have h1 : ((List.range k).map (fun a => labels.count a)).filter (· = 0) =
      ((List.range k).filter (fun a => decide (a ∉ labels))).map (fun a => labels.count a) := by
    rw [List.filter_map]
    congr 1
    apply List.filter_congr
    intro a _
    simp [List.count_eq_zero]
  have h2 : ((List.range k).filter (fun a => decide (a ∈ labels))).Perm labels.dedup := by
    apply (List.perm_ext_iff_of_nodup (List.nodup_range.filter _) (List.nodup_dedup _)).2
    intro a
    simp only [List.mem_filter, List.mem_range, decide_eq_true_eq, List.mem_dedup]
    exact ⟨fun h => h.2, fun h => ⟨hk a h, h⟩⟩
  have h3 := List.length_eq_length_filter_add (l := List.range k) (fun a => decide (a ∈ labels))
  rw [h1, List.length_map, ← h2.length_eq]
  simp only [List.length_range] at h3
  have h4 : (List.range k).filter (fun a => decide (a ∉ labels)) =
      (List.range k).filter (fun a => !decide (a ∈ labels)) := by
    apply List.filter_congr; intro a _; simp
  rw [h4]
  omega

/-- C25: with no samples to find, which happens when there are more processors than `sample_size`, `sample_lp`
divides by zero as soon as there is a vertex. -/
theorem C25_zero (shuf : Shuffle) (acc : Nat → Int → Bool) {H : Hypergraph} (hH : H.vertices ≠ []) {opts : Options}
    (h0 : opts.sampleSize = 0) (rng : Rng) : sampleLp shuf acc H opts rng = .error .ub := by
  obtain ⟨n, hn⟩ : ∃ n, H.vertices.length = n + 1 :=
    ⟨H.vertices.length - 1, by have := List.length_pos_of_ne_nil hH; omega⟩
  unfold sampleLp labelPropagation lpStart
  rw [h0, hn, List.range_succ_eq_map, List.foldlM_cons]
  simp only [lpStartStep, if_true, error_bind]

/-- C25: `sample_lp` never goes out of bounds and returns strictly increasing indices below |V|, at
most one per label of the label propagation, at most `sample_size` of them. If the comparison
`rng()/M < 1/count` holds whenever the count is 1, there is exactly one sample per label in use. -/
theorem C25_sample_lp {shuf : Shuffle} (hsh : ∀ r l, (shuf r l).1.Perm l)
    (acc : Nat → Int → Bool) {H : Hypergraph} (w : WF H) {opts : Options}
    (hopts : 1 ≤ opts.sampleSize) (rng : Rng) :
    ∃ labels rng1 samples rng2,
      labelPropagation shuf H opts.sampleSize opts.lpMaxIterations 1 rng = .ok (labels, rng1) ∧
      labels.length = H.vertices.length ∧
      sampleLp shuf acc H opts rng = .ok (samples, rng2) ∧
      samples.Pairwise (· < ·) ∧ (∀ x ∈ samples, x < H.vertices.length) ∧
      (samples.map (fun x => labels.getD x 0)).Nodup ∧ samples.length ≤ opts.sampleSize ∧
      ∀ M, (∀ d, d ≤ M → acc d 1 = true) → (∀ i, rng1 i ≤ M) →
        ∀ a ∈ labels, ∃ x ∈ samples, labels[x]? = some a := by
  obtain ⟨s0, s, -, h2, -, h4, -⟩ := labelPropagation_ok hsh w hopts opts.lpMaxIterations 1 rng
  have hcard := used_card h4.labels
  obtain ⟨s', cur, g1, g2, g3, g4, g5⟩ := sampleLpLoop_ok (acc := acc) (M := 0) h4.labels
    (forced := False) (fun h => h.elim)
    ((opts.sampleSize : Int) - ((((List.range opts.sampleSize).map
      (fun a => s.L.count a)).filter (· = 0)).length : Int)) s.L.length 0
    { samples := [], found := List.replicate opts.sampleSize false, nr := 0,
      count := tab opts.sampleSize (fun a => (s.L.count a : Int)), rng := s.rng } (by omega)
    ⟨by simp, by simp, by simp, by simp, by simp [List.getElem?_replicate], rfl, by simp, fun h => h.elim⟩
    (fun h => h.elim) (by simp)
  have hrun : sampleLp shuf acc H opts rng = .ok (s'.samples, s'.rng) := by
    unfold sampleLp
    simp only [h2, ok_bind, countLabels_ok h4.labels, List.map_map]
    rw [← h4.len]
    have : (List.range opts.sampleSize).map
        ((fun (x : Nat) => (x : Int)) ∘ fun a => s.L.count a) =
        tab opts.sampleSize (fun a => (s.L.count a : Int)) := rfl
    rw [this, g1]
    rfl
  refine ⟨s.L, s.rng, s'.samples, s'.rng, h2, h4.len, hrun, g3.sorted, ?_, g3.distinct, ?_, ?_⟩
  · intro x hx
    have := g3.below x hx
    rw [← h4.len]; omega
  · rw [← g3.nr]; omega
  · intro M hacc hr a ha
    obtain ⟨t, cur2, f1, f2, f3, f4, f5⟩ := sampleLpLoop_ok (acc := acc) (M := M) h4.labels
      (forced := True) (fun _ => hacc)
      ((opts.sampleSize : Int) - ((((List.range opts.sampleSize).map
        (fun a => s.L.count a)).filter (· = 0)).length : Int)) s.L.length 0
      { samples := [], found := List.replicate opts.sampleSize false, nr := 0,
        count := tab opts.sampleSize (fun a => (s.L.count a : Int)), rng := s.rng } (by omega)
      ⟨by simp, by simp, by simp, by simp, by simp [List.getElem?_replicate], rfl, by simp, fun _ => by simp⟩
      (fun _ => hr) (by simp)
    rw [g1] at f1
    cases f1
    have hget : ∀ x ∈ s'.samples, s.L[x]? = some (labelAt s.L x) := by
      intro x hx
      have := f3.below x hx
      have hlt : x < s.L.length := by omega
      unfold labelAt
      simp [hlt]
    suffices h : a ∈ s'.samples.map (labelAt s.L) by
      obtain ⟨x, hx, he⟩ := List.mem_map.1 h
      exact ⟨x, hx, by rw [hget x hx, he]⟩
    rcases f5 with hfull | hmany
    · rcases f3.pending trivial a (by rw [hfull, List.take_length]; exact ha) with h | h
      · exact h
      · rw [hfull] at h; simp at h
    · rw [hcard, f3.nr] at hmany
      have hsub : (s'.samples.map (labelAt s.L)).Subperm s.L.dedup := by
        apply List.subperm_of_subset f3.distinct
        intro b hb
        obtain ⟨x, hx, he⟩ := List.mem_map.1 hb
        rw [List.mem_dedup, ← he]
        exact List.mem_of_getElem? (hget x hx)
      have hperm := hsub.perm_of_length_le (by rw [List.length_map]; exact_mod_cast hmany)
      exact hperm.mem_iff.2 (List.mem_dedup.2 ha)

example : (sampleLp (fun r l => (l, r)) (fun d c => decide ((d : Int) * c < 10)) exampleH
    { exampleOpts with sampleSize := 3 } (fun n => n % 10)).toOption.map (·.1) =
    some [0, 2, 3] := by
  decide +kernel

end PMondriaan
