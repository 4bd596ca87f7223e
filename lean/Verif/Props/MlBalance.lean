import Verif.Proofs.Room
import Verif.Props.Balance

/-
C83: bisection on one processor stays within bounds that leave room for the heaviest vertex.
-/

namespace PMondriaan

open Spec

/-- C83 for the refinement: if the bounds leave room for the heaviest vertex, `KLFM` ends within both bounds, from
every start. -/
theorem C83_KLFM {H : Hypergraph} (w : WF H) (hc : CostsNonneg H) (hwn : WeightsNonneg H)
    (hb : Bipartitioned H) {C : List Cnt} (hC : CountsExact H C) {fuel : Nat}
    (hf : H.vertices.length < fuel) {max0 max1 : Int} (h0 : 0 ≤ max0) (h1 : 0 ≤ max1)
    (hroom : ∀ v ∈ H.vertices, allWeight H + v.weight ≤ max0 + max1 + 1) (opts : Options) (rng : Rng) :
    ∃ r, KLFM fuel H C ⟨partWeight H 0, partWeight H 1⟩ max0 max1 opts rng none = .ok r ∧
      partWeight r.H 0 ≤ max0 ∧ partWeight r.H 1 ≤ max1 :=
  KLFM_room w hc hwn hb hC hf h0 h1 hroom opts rng

/-- C83: if the bounds leave room for the heaviest vertex in the range, multilevel bisection ends within both bounds:
for every random stream, any number of levels and all settings. -/
theorem C83_multilevel {F : Type} {E : Env F} {N : Nat} (hE : E.Ok N) {H : Hypergraph} (w : WF H)
    (hN : ∀ n ∈ H.nets, n.id < N) (hnets : H.nets.length < 2147483648)
    (hpos : ∀ v ∈ H.vertices, 0 < v.weight) (hf : H.vertices.length < E.fuel) {s e : Nat}
    (h1 : s ≤ e) (h2 : e ≤ H.vertices.length) (labels : Interval)
    (hl : labels.low ≠ labels.high) (opts : Options) {max0 max1 : Int} (hm0 : 0 ≤ max0) (hm1 : 0 ≤ max1) (rng : Rng)
    (hroom : ∀ v ∈ slice H.vertices s e,
      ((slice H.vertices s e).map (·.weight)).sum + v.weight ≤ max0 + max1 + 1) :
    ∃ r, bisectMultilevel E H opts max0 max1 s e labels rng = .ok r ∧
      r.w0 = rangeWeight r.H s e labels.low ∧ r.w1 = rangeWeight r.H s e labels.high ∧
      rangeWeight r.H s e labels.low ≤ max0 ∧ rangeWeight r.H s e labels.high ≤ max1 := by
  obtain ⟨R, H0, C0, H1, q1, q2, q3, hred, hready, hgs, hrest⟩ :=
    bisectMultilevel_frame hE w hN hnets hpos hf h1 h2 labels hl opts max0 max1 rng
  obtain ⟨H2, rng2, l1, l2⟩ := mlLevel_ok hE 0 opts max0 max1 opts.coarseningMaxrounds H1 rng hready
  obtain ⟨r, A, l, r1, r2, r3, r4, r5, r6, r7, r8, r9, r10⟩ := hrest H2 _ rng2 l1 l2
  have hfpos : ∀ f ∈ freeOf H0, 0 ≤ f.2 := by
    intro f hf
    obtain ⟨v, hv, rfl⟩ := List.mem_map.1 hf
    obtain ⟨u, hu, -, he⟩ := hred.in_slice (List.mem_filter.1 hv).1
    show 0 ≤ v.weight
    rw [← he]
    exact le_of_lt (hpos u (slice_mem hu))
  have hfsum := sum_map_nonneg (freeOf H0) (·.2) hfpos
  have htot : (H1.vertices.map (·.weight)).sum + ((freeOf H0).map (·.2)).sum =
      ((slice H.vertices s e).map (·.weight)).sum := by
    have := (hred.perm.map (·.2)).sum_eq
    simpa [Function.comp_def] using this
  have hw2 : allWeight H2 = (H1.vertices.map (·.weight)).sum := by
    have := congrArg (List.map (·.2)) l2.same.vertices
    rw [List.map_map, List.map_map] at this
    exact congrArg List.sum this
  have hroom1 : ∀ v ∈ H1.vertices, allWeight H1 + v.weight ≤ max0 + max1 + 1 := by
    intro v hv
    have h3 := hred.perm.subset (List.mem_append_left _ (List.mem_map.2 ⟨v, hv, rfl⟩))
    obtain ⟨u, hu, h4⟩ := List.mem_map.1 h3
    have h5 := congrArg Prod.snd h4
    simp only at h5
    have h6 := hroom u hu
    unfold allWeight
    omega
  have hbal := mlLevel_room hE 0 opts hm0 hm1 _ H1 rng hready hroom1 l1
  have hlw : (l.map (·.weight)).sum = ((freeOf H0).map (·.2)).sum := by
    rw [← (r7.map (·.2)).sum_eq, List.map_map]
    rfl
  have hg := greedy_room r8 hbal.1 hbal.2
    (fun v hv => hfpos (v.id, v.weight) (r7.subset (List.mem_map.2 ⟨v, hv, rfl⟩))) (fun v hv => by
      have h3 := hred.perm.subset (List.mem_append_right _ (r7.subset (List.mem_map.2 ⟨v, hv, rfl⟩)))
      obtain ⟨u, hu, h4⟩ := List.mem_map.1 h3
      have h5 := congrArg Prod.snd h4
      simp only at h5
      have h6 := hroom u hu
      have := bip_total l2.bip
      omega)
  refine ⟨r, r1, r3, r4, ?_⟩
  rw [← r3, ← r4, r9, r10, partWeight_add_list r6, partWeight_add_list r6]
  exact hg

/-- C83: the bisection of the program, random or multilevel, stays within bounds that leave room for the heaviest
vertex. -/
theorem C83_bisect {F : Type} {E : Env F} {N : Nat} (hE : E.Ok N) (opts : Options) (om : Int) :
    Balances (fun H m0 m1 s e l rng => bisectOne E H opts m0 m1 s e l rng) N E.fuel om om := by
  intro H hf hmax s e h1 h2 labels hl max0 max1 hm0 hm1 hsum rng r hr
  simp only [bisectOne] at hr
  by_cases hb : opts.bisectionRandom = true
  · rw [if_pos hb] at hr
    exact bisectRandom_balances N E.fuel om H hf hmax s e h1 h2 labels hl max0 max1 hm0 hm1 hsum rng r hr
  · rw [if_neg hb] at hr
    obtain ⟨r', a1, a2, a3, a4, a5⟩ := C83_multilevel hE hf.wf hf.ids hf.nets hf.pos hf.size h1 h2 labels hl opts hm0 hm1
      rng (fun v hv => by have := hmax v (slice_mem hv); omega)
    rw [hr] at a1
    obtain rfl := Except.ok.inj a1
    rw [a2, a3]
    exact ⟨a4, a5⟩

/-- C83 for the recursion, in exact arithmetic: C82 holds for both bisection functions of the program. -/
theorem C83_exact {F : Type} {E : Env F} {N : Nat} (hE : E.Ok N) {opts : Options} {P : RecEnv} {k L : Nat}
    {om M : Int} (hb : P.bis = fun H m0 m1 s e l rng => bisectOne E H opts m0 m1 s e l rng)
    (hd1 : Fair P.d1) (hd2 : Fair P.d2) (hk : 2 ≤ k) {H : Hypergraph}
    (hf : Fit N E.fuel H) (hmax : ∀ v ∈ H.vertices, v.weight ≤ om) (hom : 0 ≤ om)
    (hne : P.cutMetric = true → ∀ n ∈ H.nets, n.vertices ≠ []) {epsilon : ℚ} (heps : 0 ≤ epsilon)
    (rng : Rng) (hr : P.rnd = id) (hL : L = Nat.clog 2 k) (hM : M = ⌊(1 + epsilon) * H.totalWeight / k⌋)
    (hroom : k * om * max 1 (2 * ((L : Int) - 1)) ≤ 2 * (k * M - H.totalWeight))
    (htight : (k * M - H.totalWeight) * (L * (L + 1)) < 2 * k * M) :
    ∃ s, recursiveBisect P H k epsilon rng = .ok s ∧ Partitioned k H s.H ∧
      ∀ p : Int, 0 ≤ p → p < k → Spec.partWeight s.H p ≤ M :=
  balanced_exact (by rw [hb]; exact bisectOne_well hE opts) (by rw [hb]; exact C83_bisect hE opts om)
    hd1 hd2 hk hf hmax hom hne heps rng hr hL hM hroom htight

/-- The same in `double` arithmetic with 53 bits. -/
theorem C83_double {F : Type} {E : Env F} {N : Nat} (hE : E.Ok N) {opts : Options} {P : RecEnv} {k L : Nat}
    {om M : Int} (hb : P.bis = fun H m0 m1 s e l rng => bisectOne E H opts m0 m1 s e l rng)
    (hd1 : Fair P.d1) (hd2 : Fair P.d2) (hk : 2 ≤ k) {H : Hypergraph}
    (hf : Fit N E.fuel H) (hmax : ∀ v ∈ H.vertices, v.weight ≤ om) (hom : 0 ≤ om)
    (hne : P.cutMetric = true → ∀ n ∈ H.nets, n.vertices ≠ []) {epsilon : ℚ} (heps : 0 ≤ epsilon)
    (rng : Rng) (hr : RoundsWithin (1 / 2 ^ 53) P.rnd) (hL : L = Nat.clog 2 k)
    (hM : M = maxWeight P.rnd epsilon H.totalWeight k) (hsize : k * M * L ^ 3 ≤ 2 ^ 46)
    (hroom : k * (om + 1) * L ≤ k * M - H.totalWeight)
    (htight : (k * M - H.totalWeight) * (L * (L + 1)) ≤ 2 * k * (M - 1)) :
    ∃ s, recursiveBisect P H k epsilon rng = .ok s ∧ Partitioned k H s.H ∧
      ∀ p : Int, 0 ≤ p → p < k → Spec.partWeight s.H p ≤ M :=
  balanced_double (by rw [hb]; exact bisectOne_well hE opts) (by rw [hb]; exact C83_bisect hE opts om)
    hd1 hd2 hk hf hmax hom hne heps rng hr hL hM hsize hroom htight

/-- Three pairs with bounds 7 and 7: the coarse bisection cannot be within the bounds (three vertices of weight 4), but the
bisection returned is. -/
example : ∀ v ∈ slice threePairs.vertices 0 6,
    ((slice threePairs.vertices 0 6).map (·.weight)).sum + v.weight ≤ 7 + 7 + 1 := by decide

/-- An environment with room for the thirty-six vertices. -/
def exampleEnvBig (N : Nat) : Env Nat := { exampleEnv N with fuel := 37 }

theorem exampleEnvBig_ok : (exampleEnvBig 9).Ok 9 where
  shuf := fun _ l => List.Perm.refl l
  order := fun l => List.Perm.refl l
  orderNets := fun l => List.Perm.refl l
  srt := fun l => List.Perm.refl l
  d1 := fun _ l => List.Perm.refl l
  d2 := fun _ l => List.Perm.refl l
  np := blockPart_valid 1 9 (by decide)

/-- Four parts with ε = 1/9 and two rounds of coarsening: every part gets at most ten of the thirty-six vertices, for
every random stream. -/
example (rng : Rng) (c : Bool) : ∃ s, recursiveBisect { randomEnv id c with
      bis := fun H m0 m1 s e l rng => bisectOne (exampleEnvBig 9) H exampleOpts m0 m1 s e l rng } thirtysix 4 (1 / 9) rng =
      .ok s ∧
    Partitioned 4 thirtysix s.H ∧ ∀ p : Int, 0 ≤ p → p < 4 → Spec.partWeight s.H p ≤ 10 :=
  C83_exact (P := { randomEnv id c with
      bis := fun H m0 m1 s e l rng => bisectOne (exampleEnvBig 9) H exampleOpts m0 m1 s e l rng })
    exampleEnvBig_ok (opts := exampleOpts) (L := 2) (om := 1) (M := 10) rfl (fun _ l => List.Perm.refl l)
    (fun _ l => List.Perm.refl l) (by decide) thirtysix_fit (by decide +kernel) (by decide)
    (fun _ => by decide +kernel) (by norm_num) rng rfl (by decide) (by decide +kernel) (by decide +kernel)
    (by decide +kernel)

/-- Two vertices of weight 2 joined by a net. -/
def twoHeavy : Hypergraph :=
  Hypergraph.create 2 1
    [{ id := 0, nets := [0], weight := 2, part := -1 }, { id := 1, nets := [0], weight := 2, part := -1 }]
    [{ id := 0, vertices := [0, 1], cost := 1, globalSize := 2 }]

/-- Without the room the bisection can exceed a bound, although the bounds add up to the weight. -/
theorem C83_room_needed : (bisectMultilevel (exampleEnv 1) twoHeavy exampleOpts 3 1 0 2 ⟨0, 1⟩ (fun n => n)).toOption.map
    (fun r => (r.w0, r.w1)) = some (4, 0) := by decide +kernel

end PMondriaan
