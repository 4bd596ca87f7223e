import Verif.Proofs.MachineParPass
import Verif.Props.KLFMPar
import Verif.Props.MlPar
import Verif.Props.ParBalance

/-
C109: the parallel refinement in 64-bit signed numbers.
-/

namespace PMondriaan

open Spec

namespace Spec

/-- Moderate weights and costs: the costs of the nets on all processors together, the bounds on the weights of the parts,
and the total weight times three times the number of passes (plus one) are at most 2^60. -/
structure ParModerate (args : List ParArgs) (max0 max1 : Int) (passes : Nat) : Prop where
  nonneg : ∀ a ∈ args, WeightsNonneg a.H
  costs : (args.map (fun a => (a.H.nets.map (·.cost)).sum)).sum ≤ 2 ^ 60
  weights : (3 * (passes : Int) + 1) * (args.map (fun a => (a.H.vertices.map (·.weight)).sum)).sum ≤ 2 ^ 60
  max0 : -2 ^ 60 ≤ max0 ∧ max0 ≤ 2 ^ 60
  max1 : -2 ^ 60 ≤ max1 ∧ max1 ≤ 2 ^ 60

end Spec

theorem union_weight (N : Nat) (Hs : List Hypergraph) :
    ((unionH N Hs).vertices.map (·.weight)).sum = (Hs.map (fun H => (H.vertices.map (·.weight)).sum)).sum := by
  show ((Hs.flatMap (·.vertices)).map (·.weight)).sum = _
  induction Hs with
  | nil => rfl
  | cons H Hs ih => rw [List.flatMap_cons, List.map_append, List.sum_append, ih, List.map_cons, List.sum_cons]

/-- C109: for moderate weights and costs `KLFM_par` on any number of processors does not overflow its 64-bit variables: a
run that succeeds with unlimited numbers gives the same with 64-bit ones, in every order of arrival, for every outcome of
the sorts and every stream of random numbers. -/
theorem C109_refine_par64 {N : Nat} {e : ParEnv} (he : ParFair e) {args : List ParArgs}
    (hi : ParInput N e.np args) {fuel rounds : Nat} {max0 max1 : Int} {opts : Options} {cut : Option Int}
    (hm : ParModerate args max0 max1 opts.klfmMaxPasses)
    (hcut : cut = none → cutValue opts.metric (unionH N (args.map (·.H))) < 2 ^ 63) {ps : List ParResult}
    (h : KLFMPar rounds fuel e args max0 max1 opts cut = .ok ps) :
    KLFMPar64 rounds fuel e args max0 max1 opts cut = .ok ps := by
  unfold KLFMPar at h
  rw [bind_eq_ok] at h
  obtain ⟨cuts, h1, h⟩ := h
  rw [bind_eq_ok] at h
  obtain ⟨rl, h2, h⟩ := h
  rw [bind_eq_ok] at h
  obtain ⟨own, h3, h⟩ := h
  obtain ⟨r, rfl, hr⟩ := rangeM_fn h2
  have hlen : (args.map (·.H)).length = args.length := List.length_map _
  have hat : ∀ t, t < args.length → ∃ a, args[t]? = some a ∧ hAt (args.map (·.H)) t = a.H := by
    intro t ht
    obtain ⟨a, ha⟩ : ∃ a, args[t]? = some a := ⟨_, List.getElem?_eq_getElem ht⟩
    refine ⟨a, ha, ?_⟩
    have := hAt_get (Hs := args.map (·.H)) (t := t) (by omega)
    rw [List.getElem?_map, ha] at this
    exact (Option.some.inj this).symm
  -- sums over the processors
  have hT : procWeight args.length (hAt (args.map (·.H))) = (args.map (fun a => (a.H.vertices.map (·.weight)).sum)).sum := by
    have := map_hAt (args.map (·.H)) (fun H => (H.vertices.map (·.weight)).sum)
    rw [hlen, List.map_map] at this
    unfold procWeight
    rw [← this]
    rfl
  have hC : ((List.range args.length).map (fun t => ((hAt (args.map (·.H)) t).nets.map (·.cost)).sum)).sum =
      (args.map (fun a => (a.H.nets.map (·.cost)).sum)).sum := by
    have := map_hAt (args.map (·.H)) (fun H => (H.nets.map (·.cost)).sum)
    rw [hlen, List.map_map] at this
    rw [← this]
    rfl
  have hT0 : 0 ≤ procWeight args.length (hAt (args.map (·.H))) := by
    rw [hT]
    apply sum_nonneg'
    intro x hx
    obtain ⟨a, ha, rfl⟩ := List.mem_map.1 hx
    apply sum_nonneg'
    intro y hy
    obtain ⟨v, hv, rfl⟩ := List.mem_map.1 hy
    exact hm.nonneg a ha v hv
  have hB := hm.weights
  rw [← hT] at hB
  obtain ⟨T, hTT⟩ : ∃ T, T = procWeight args.length (hAt (args.map (·.H))) := ⟨_, rfl⟩
  have hB' : T + 3 * (opts.klfmMaxPasses : Int) * T ≤ 2 ^ 60 := by
    rw [hTT]
    have e : (3 * (opts.klfmMaxPasses : Int) + 1) * procWeight args.length (hAt (args.map (·.H))) =
        procWeight args.length (hAt (args.map (·.H))) +
          3 * (opts.klfmMaxPasses : Int) * procWeight args.length (hAt (args.map (·.H))) := by ring
    rw [← e]
    exact hB
  have hT1 : T ≤ 2 ^ 60 := by
    have : 0 ≤ 3 * (opts.klfmMaxPasses : Int) * T := Int.mul_nonneg (by omega) (by omega)
    omega
  have fit : ∀ t, t < args.length → FitP (hAt (args.map (·.H)) t) := by
    intro t ht
    obtain ⟨a, ha, e⟩ := hat t ht
    have ham := List.mem_of_getElem? ha
    rw [e]
    refine ⟨hi.costs a ham, hm.nonneg a ham, ?_, ?_⟩
    · refine Int.le_trans (entry_le_sum ?_ (List.mem_map_of_mem (f := fun a : ParArgs => (a.H.nets.map (·.cost)).sum) ham))
        hm.costs
      intro x hx
      obtain ⟨b, hb, rfl⟩ := List.mem_map.1 hx
      apply sum_nonneg'
      intro y hy
      obtain ⟨n, hn, rfl⟩ := List.mem_map.1 hy
      exact hi.costs b hb n hn
    · refine Int.le_trans (entry_le_sum ?_
        (List.mem_map_of_mem (f := fun a : ParArgs => (a.H.vertices.map (·.weight)).sum) ham)) (by omega)
      intro x hx
      obtain ⟨b, hb, rfl⟩ := List.mem_map.1 hx
      apply sum_nonneg'
      intro y hy
      obtain ⟨v, hv, rfl⟩ := List.mem_map.1 hy
      exact hm.nonneg b hb v hv
  have hvf : ∀ t, t < args.length → VertexFit (hAt (args.map (·.H)) t) := fun t ht =>
    vertexFit (hi.dist.wf _ (hAt_mem (by omega))) (fit t ht)
  -- the start
  have hr' : ∀ t, t < args.length → Frame (hAt (args.map (·.H)) t) (r t).H ∧ ∃ a ∈ args, (r t).w = a.w := by
    intro t ht
    obtain ⟨a, ha, e⟩ := hat t ht
    have h4 := hr t ht
    simp only [bind_eq_ok] at h4
    obtain ⟨b, hb, c, hc, L, hL, H, hH, h4⟩ := h4
    rw [vget_ok ha] at hb
    cases hb
    have h5 := Except.ok.inj h4
    rw [← h5, e]
    exact ⟨sortVertices_frame hH, a, List.mem_of_getElem? ha, rfl⟩
  have pf : PassFit args.length (hAt (args.map (·.H))) T r := by
    have hw : ∀ t, t < args.length → (r t).w.w0.natAbs ≤ T ∧ (r t).w.w1.natAbs ≤ T := by
      intro t ht
      obtain ⟨-, a, ha, hwa⟩ := hr' t ht
      have k1 := input_total hi a ha
      have hvn : ∀ v ∈ (unionH N (args.map (·.H))).vertices, 0 ≤ v.weight := by
        intro v hv
        obtain ⟨H, hH, hv⟩ := List.mem_flatMap.1 (show v ∈ (args.map (·.H)).flatMap (·.vertices) from hv)
        obtain ⟨b, hb, rfl⟩ := List.mem_map.1 hH
        exact hm.nonneg b hb v hv
      have k2 := partWeight_nonneg' hvn 0
      have k3 := partWeight_nonneg' hvn 1
      have k4 : a.w.w0 = partWeight (unionH N (args.map (·.H))) 0 ∧ a.w.w1 = partWeight (unionH N (args.map (·.H))) 1 := by
        rw [hi.weights a ha]
        exact ⟨rfl, rfl⟩
      rw [union_weight, List.map_map] at k1
      have k5 : a.w.w0 + a.w.w1 = T := by
        rw [k1, hTT, hT]
        rfl
      rw [hwa]
      omega
    exact ⟨fun t ht => (hr' t ht).1, fun t ht => (hw t ht).1, fun t ht => (hw t ht).2⟩
  have hl : (((List.range args.length).map r).map (·.H)).length = args.length := by simp
  have ho : OwnFit args.length own := by
    have := initCost_fit he.cost (dp := e.dProc) (np := e.np) (Hs := ((List.range args.length).map r).map (·.H)) (by
      intro H hH n hn
      rw [List.map_map] at hH
      obtain ⟨t, ht, rfl⟩ := List.mem_map.1 hH
      have ht := List.mem_range.1 ht
      exact ((fit t ht).cost (hr' t ht).1 hn).1) (by
      rw [List.map_map, List.map_map]
      refine Int.le_trans (Int.le_of_eq ?_) (Int.le_trans (Int.le_of_eq hC) hm.costs)
      congr 1
      apply List.map_congr_left
      intro t ht
      have ht := List.mem_range.1 ht
      show ((r t).H.nets.map (·.cost)).sum = _
      rw [(hr' t ht).1.costs]) h3
    rw [hl] at this
    exact this
  have hs : startCutPar64 e (args.map (·.H)) opts.metric cut = .ok cuts := by
    cases cut with
    | some c => exact h1
    | none =>
      refine Eq.trans ?_ h1
      exact cutsizePar64_eq hi.dist (by rw [hlen]; exact hi.owners) he.cut he.so (List.forall_mem_map.2 hi.costs) _ (hcut rfl)
  unfold KLFMPar64
  rw [hs]; simp only [ok_bind]
  rw [h2]; simp only [ok_bind]
  rw [h3]; simp only [ok_bind]
  exact parPasses_sim ⟨fit, ho, hm.max0, hm.max1⟩ hvf he.pass opts.klfmMaxPasses 0 (D := T) (by omega)
    (by rw [← hTT]; exact hB') pf h

/-- C109, complete under assumptions: if in addition either part may hold all the weight and no processor has a net
without pins, the 64-bit `KLFM_par` succeeds and its output is right. -/
theorem C109_refine_par64_slack {N : Nat} {e : ParEnv} (he : ParFair e) {args : List ParArgs}
    (hi : ParInput N e.np args) {fuel rounds : Nat} (hf : ∀ a ∈ args, a.H.vertices.length < fuel)
    (hr : (args.map (fun a => a.H.vertices.length)).sum < rounds) {max0 max1 : Int} (opts : Options) {cut : Option Int}
    (hcut : ∀ x, cut = some x → x = cutValue .cutNet (unionH N (args.map (·.H))))
    (hne : ∀ a ∈ args, ∀ n ∈ a.H.nets, n.vertices ≠ [])
    (h0 : ((unionH N (args.map (·.H))).vertices.map (·.weight)).sum ≤ max0)
    (h1 : ((unionH N (args.map (·.H))).vertices.map (·.weight)).sum ≤ max1)
    (hm : ParModerate args max0 max1 opts.klfmMaxPasses)
    (hcv : cut = none → cutValue opts.metric (unionH N (args.map (·.H))) < 2 ^ 63) :
    ∃ ps, KLFMPar64 rounds fuel e args max0 max1 opts cut = .ok ps ∧ ParOutput N args ps ∧
      ∀ q ∈ ps, q.w = ⟨partWeight (unionH N (ps.map (·.H))) 0, partWeight (unionH N (ps.map (·.H))) 1⟩ := by
  obtain ⟨ps, k1, k2, k3⟩ := C51_refine_par_slack he hi hf hr opts hcut hne hm.nonneg h0 h1
  exact ⟨ps, C109_refine_par64 he hi hm hcv k1, k2, k3⟩

/-- The assumptions hold for the two processors of the example above, and the 64-bit run brings the cut from 2 to 0. -/
example : ParModerate tieArgs 18 18 (parOpts 1).klfmMaxPasses ∧ ParInput 2 (parEnv 2).np tieArgs ∧
    cutValue (parOpts 1).metric (unionH 2 (tieArgs.map (·.H))) < 2 ^ 63 ∧
    (KLFMPar64 10 10 (parEnv 2) tieArgs 18 18 (parOpts 1) none).toOption.map
      (fun ps => ps.map (fun q => (q.cut, q.w))) = some [(0, ⟨0, 18⟩), (0, ⟨0, 18⟩)] := by
  refine ⟨⟨by unfold WeightsNonneg; decide, by decide, by decide, by decide, by decide⟩, tie_input, by decide, by decide +kernel⟩

/-- Two heavy vertices in different parts with a net between them. -/
def wideH (a v n : Nat) : Hypergraph := Hypergraph.create 4 2
  [ { id := a, nets := [n], weight := 2500000000000000000, part := 0 },
    { id := v, nets := [n], weight := 2500000000000000000, part := 1 } ]
  [ { id := n, vertices := [a, v], cost := 1, globalSize := 2 } ]

def wideArgs : List ParArgs :=
  [wideH 0 1 0, wideH 2 3 1].map (fun H => ⟨H, [⟨1, 1⟩], ⟨5000000000000000000, 5000000000000000000⟩, fun _ => 0⟩)

theorem wideH_wf {a v n : Nat} (h1 : a ≠ v) : WF (wideH a v n) :=
  WF_create (by simp [h1]) (by simp) (by simp) (by simp [h1]) (by simp) (by simp)

theorem wide_input : ParInput 2 (blockPart 2 2) wideArgs where
  dist := by
    refine ⟨?_, by decide, by decide, by decide⟩
    intro H hH
    simp only [wideArgs, List.map_cons, List.map_nil, List.mem_cons, List.not_mem_nil, or_false] at hH
    rcases hH with rfl | rfl <;> exact wideH_wf (by decide)
  owners := blockPart_valid 2 2 (by decide)
  sizes := by decide
  costs := by unfold CostsNonneg; decide
  bip := by unfold Bipartitioned; decide
  counts := by unfold GlobalCounts; decide
  weights := by decide

/-- C109: the limit on the weights is needed. Two processors have four vertices of weight 2.5·10^18, two in each part; the
weights of the parts, 5·10^18, and the bounds on them fit in 64 bits. Both processors propose to move their vertex of
part 1 to part 0; with both moves part 0 has weight 10^19, which overflows, although one of the moves would be rejected
and the refinement would succeed with larger numbers. -/
theorem C109_overflow : ParFair (evenEnv 2 2) ∧ ParInput 2 (evenEnv 2 2).np wideArgs ∧ (∀ a ∈ wideArgs, WeightsNonneg a.H) ∧
    (KLFMPar 10 10 (evenEnv 2 2) wideArgs 8000000000000000000 6000000000000000000 (parOpts 1) none).toOption.map
      (fun ps => ps.map (fun q => (q.cut, q.w))) =
      some [(0, ⟨5000000000000000000, 5000000000000000000⟩), (0, ⟨5000000000000000000, 5000000000000000000⟩)] ∧
    KLFMPar64 10 10 (evenEnv 2 2) wideArgs 8000000000000000000 6000000000000000000 (parOpts 1) none = .error .ub := by
  refine ⟨evenEnv_fair 2 2, wide_input, by unfold WeightsNonneg; decide, by decide +kernel,
    eq_of_failsWith (by decide +kernel)⟩

end PMondriaan
