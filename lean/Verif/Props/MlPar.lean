import Verif.Proofs.MlParTop

/-
C59 and C60: the multilevel bisection on several processors.
-/

namespace PMondriaan

open Spec

section

variable {F : Type} {E : ParBisectEnv F} {N T : Nat}

/-- C59: the coarsening, initial bisection and uncoarsening of all levels. The processors always agree
on whether to go on; in the end they hold a bisection of the hypergraphs they started with, and all know its
true cutsize. What is missing: the refinement can make an access out of bounds
(`C51_ub_stale_gains`) when the weight bounds leave no room, and random sampling can stop the program
(`C47_empty_processor`). -/
theorem C59_levels_partial {Hs : List Hypergraph} (hE : ParBisectEnvOk E Hs.length N T) (hN : N < 2147483648)
    (opts : Options) (ho : opts.samplingLp = true → 1 ≤ opts.sampleSize) (max0 max1 : Int) (hL : ParLevel N T Hs)
    (n : Nat) {rngs : List Rng} (hr : rngs.length = Hs.length) :
    (∃ L, mlPar E opts max0 max1 n 0 (Hs.map (fun _ => true)) Hs rngs = .ok L ∧ LevelBisected N Hs L) ∨
    (¬ Roomy max0 max1 Hs ∧ mlPar E opts max0 max1 n 0 (Hs.map (fun _ => true)) Hs rngs = .error .ub) ∨
    (opts.samplingLp = false ∧ mlPar E opts max0 max1 n 0 (Hs.map (fun _ => true)) Hs rngs = .error .abort) :=
  mlPar_ok hE hN opts ho max0 max1 n 0 _ Hs rngs rfl hL (by simp) ⟨true, by simp⟩ hr

/-- C60: `bisect_multilevel` on several processors gives every vertex in the range of every processor the low
or the high label, changes nothing else, and returns the true weights of both labels on each processor. What
is missing: the two ways to fail of C59 (and a division by zero when the bounds have sum zero); vertices of weight
zero; `2^31` or more nets. -/
theorem C60_partial {xs : List RangeOf} (hE : ParBisectEnvOk E xs.length N T) (hne : xs ≠ [])
    (hD : Distributed N (xs.map (·.H))) (hr : ∀ x ∈ xs, x.s ≤ x.e ∧ x.e ≤ x.H.vertices.length)
    (hpos : ∀ x ∈ xs, ∀ v ∈ x.H.vertices, 0 < v.weight) (hN : N < 2147483648)
    (hT : (xs.map (fun x => x.H.vertices.length)).sum < T) {labels : Interval}
    (hl : labels.low ≠ labels.high) (opts : Options) (ho : opts.samplingLp = true → 1 ≤ opts.sampleSize) (max0 max1 : Int)
    {rngs : List Rng} (hrn : rngs.length = xs.length) :
    (∃ rs, bisectMultilevelPar E opts max0 max1 xs labels rngs = .ok rs ∧
      List.Forall₂ (fun (x : RangeOf) (r : RState) => Relabels x.s x.e labels.low labels.high x.H r.H ∧
        r.w0 = rangeWeight r.H x.s x.e labels.low ∧ r.w1 = rangeWeight r.H x.s x.e labels.high) xs rs) ∨
    (¬ ((xs.map (fun x => ((inRange x).map (·.weight)).sum)).sum ≤ max0 ∧
        (xs.map (fun x => ((inRange x).map (·.weight)).sum)).sum ≤ max1) ∧
      bisectMultilevelPar E opts max0 max1 xs labels rngs = .error .ub) ∨
    (opts.samplingLp = false ∧ bisectMultilevelPar E opts max0 max1 xs labels rngs = .error .abort) := by
  obtain ⟨Rs, c1, c2⟩ := createNewPar_ok hD hr hE.np hE.d1 hE.d2 hE.orderNets
  obtain ⟨H0, k1, -⟩ := mapM_choose (l := Rs) (f := fun R => R.copy) (P := fun _ _ => True) (by
    intro R hR
    obtain ⟨x, hx, h⟩ := forall2_mem_right c2 hR
    obtain ⟨H', h1, -⟩ := copy_ok h.wf
    exact ⟨H', h1, trivial⟩)
  obtain ⟨M, m1, m2, m3⟩ := start_ok hD c2 k1
  have hlev := started_level hD hne hpos hT m2 (fun m hm => (m3 m hm).2)
  have hlen : (M.map (·.2)).length = xs.length := by rw [List.length_map, m2.length_eq]
  have hgo : M.map (fun _ => true) = (M.map (·.2)).map (fun _ => true) := by rw [List.map_map]; rfl
  have hrun := C59_levels_partial (by rw [hlen]; exact hE) hN opts ho max0 max1 hlev opts.coarseningMaxrounds
    (rngs := rngs) (by rw [hlen]; exact hrn)
  rw [← hgo] at hrun
  rcases hrun with ⟨L, l1, l2⟩ | ⟨l0, l1⟩ | ⟨l0, l1⟩
  · rcases finishPar_ok hD hne hpos m2 (fun m hm => (m3 m hm).1) l2 hE.srt (max0 := max0) (max1 := max1) hl
      (rngAt (L.map (fun q => q.2.2))) with ⟨f1, f2, f3⟩ | ⟨as, rs, a1, a2, a3, -⟩
    · right; left
      refine ⟨fun h => ?_, ?_⟩
      · have := started_free hpos m2 f1
        omega
      · unfold bisectMultilevelPar
        simp only [c1, k1, m1, l1, f3, ok_bind, error_bind]
    left
    refine ⟨rs, ?_, a3⟩
    unfold bisectMultilevelPar
    simp only [c1, k1, m1, l1, a1, ok_bind]
    exact a2
  · right; left
    refine ⟨fun h => l0 (started_roomy hpos m2 h.1 h.2), ?_⟩
    unfold bisectMultilevelPar
    simp only [c1, k1, m1, l1, ok_bind, error_bind]
  · right; right
    refine ⟨l0, ?_⟩
    unfold bisectMultilevelPar
    simp only [c1, k1, m1, l1, ok_bind, error_bind]

/-- C59 does not hold: with random sampling the program stops whenever a processor has no vertices while there are
enough on the others to coarsen. -/
theorem C59_false {Hs : List Hypergraph} (hE : ParBisectEnvOk E Hs.length N T) {opts : Options}
    (ho : opts.samplingLp = false) (max0 max1 : Int) (hL : ParLevel N T Hs) (n : Nat) {rngs : List Rng}
    (hr : rngs.length = Hs.length)
    (hmany : max opts.coarseningNrvertices (Hs.length * opts.sampleSize * 3) < (Hs.map (fun H => H.vertices.length)).sum)
    {H : Hypergraph} (hH : H ∈ Hs) (hH0 : H.vertices = []) :
    mlPar E opts max0 max1 (n + 1) 0 (Hs.map (fun _ => true)) Hs rngs = .error .abort := by
  have hg : agreed ((Hs.zip (Hs.map (fun _ => true))).map (fun x => goesOn opts Hs.length (n + 1) x.1 x.2)) = .ok true := by
    apply agreed_ok
    · intro h
      have h1 := congrArg List.length h
      rw [List.length_map, List.length_zip, List.length_map, Nat.min_self] at h1
      exact hL.nonempty (List.length_eq_zero_iff.1 h1)
    · intro b hb
      obtain ⟨x, hx, rfl⟩ := List.mem_map.1 hb
      obtain ⟨h1, h2⟩ := List.of_mem_zip hx
      obtain ⟨-, -, h2⟩ := List.mem_map.1 h2
      unfold goesOn
      rw [hL.size _ h1, ← h2]
      simp only [Bool.and_true, Bool.and_eq_true, decide_eq_true_eq]
      exact ⟨hmany, by omega⟩
  unfold mlPar
  rw [hg, ok_bind, if_pos rfl,
    coarsenPar_empty (hE.coarse 0) (hE.accRandom 0) ho rfl hL.dist hr hH hH0]
  rfl

end

/-- Two processors with four vertices each; net 4 lies on both. -/
def exampleWide : List RangeOf :=
  [ { H := Hypergraph.create 8 5
        [ { id := 0, nets := [0], weight := 1, part := -1 }, { id := 1, nets := [0, 4], weight := 2, part := -1 },
          { id := 2, nets := [1], weight := 1, part := -1 }, { id := 3, nets := [1, 4], weight := 1, part := -1 } ]
        [ { id := 0, vertices := [0, 1], cost := 1, globalSize := 2 },
          { id := 1, vertices := [2, 3], cost := 1, globalSize := 2 },
          { id := 4, vertices := [1, 3], cost := 1, globalSize := 3 } ], s := 0, e := 4 },
    { H := Hypergraph.create 8 5
        [ { id := 4, nets := [2, 4], weight := 1, part := -1 }, { id := 5, nets := [2], weight := 1, part := -1 },
          { id := 6, nets := [3], weight := 3, part := -1 }, { id := 7, nets := [3], weight := 1, part := -1 } ]
        [ { id := 2, vertices := [4, 5], cost := 1, globalSize := 2 },
          { id := 3, vertices := [6, 7], cost := 1, globalSize := 2 },
          { id := 4, vertices := [4], cost := 1, globalSize := 3 } ], s := 0, e := 4 } ]

/-- Messages arrive in reverse, nothing else is rearranged. -/
def exampleParEnv : ParBisectEnv Nat where
  coarse := fun _ => { exampleCoarseEnv with
    accRandom := fun d left size => decide (d % 11 * size ≤ left * 10), np := blockPart 2 5 }
  uncoarse := fun _ => { exampleUncoarse with refine := parEnv 5 }
  seq := fun _ => exampleEnv 5
  dVert := revDelivery _
  dCost := revDelivery _
  dLabel := revDelivery _
  dCut := revDelivery _
  ratio := fun a b => decide (a < 20 * (a - b))
  orderNets := id
  d1 := revDelivery _
  d2 := revDelivery _
  np := blockPart 2 5
  srt := sortDesc

theorem exampleParEnv_ok : ParBisectEnvOk exampleParEnv 2 5 10 where
  coarse := fun _ => ⟨fun _ _ => .refl _, fun _ => .refl _, fun _ _ => .refl _, fun _ l => l.reverse_perm,
    revDelivery_fair _, revDelivery_fair _, revDelivery_fair _, revDelivery_fair _,
    revDelivery_fair _, revDelivery_fair _, blockPart_valid 2 5 (by decide)⟩
  accRandom := by
    intro _ d s hs
    apply decide_eq_true
    have : d % 11 ≤ 10 := by omega
    rw [Nat.mul_comm s 10]
    exact Nat.mul_le_mul_right s this
  uncoarse := fun _ => ⟨sortDesc_perm, revDelivery_fair _, revDelivery_fair _, parEnv_fair 5,
    blockPart_valid 2 5 (by decide)⟩
  fuel := fun _ => Nat.le_refl 10
  rounds := fun _ => Nat.le_refl 10
  seq := fun _ => ⟨fun _ l => .refl l, fun l => .refl l, fun l => .refl l, fun l => .refl l,
    fun _ l => .refl l, fun _ l => .refl l, blockPart_valid 1 5 (by decide)⟩
  seqFuel := fun _ => Nat.le_refl 10
  dVert := revDelivery_fair _
  dCost := revDelivery_fair _
  dLabel := revDelivery_fair _
  dCut := revDelivery_fair _
  orderNets := fun l => .refl l
  d1 := revDelivery_fair _
  d2 := revDelivery_fair _
  np := blockPart_valid 2 5 (by decide)
  srt := sortDesc_perm

theorem exampleWide_dist : Distributed 5 (exampleWide.map (·.H)) :=
  ⟨by
    intro H hH
    simp only [exampleWide, List.map_cons, List.map_nil, List.mem_cons, List.not_mem_nil, or_false] at hH
    rcases hH with rfl | rfl <;>
      exact WF_create (by decide) (by decide) (by decide) (by decide) (by decide) (by decide),
    by decide, by decide, by decide⟩

/-- One parallel level (vertex 1 is matched to vertex 4 of the other processor), then a bisection with labels
4 and 5; only net 4 is cut. All assumptions of C60 hold. -/
example : exampleWide ≠ [] ∧ Distributed 5 (exampleWide.map (·.H)) ∧
    (∀ x ∈ exampleWide, x.s ≤ x.e ∧ x.e ≤ x.H.vertices.length) ∧
    (∀ x ∈ exampleWide, ∀ v ∈ x.H.vertices, 0 < v.weight) ∧
    (exampleWide.map (fun x => x.H.vertices.length)).sum < 10 ∧
    (bisectMultilevelPar exampleParEnv { exampleOpts with sampleSize := 1, maxClustersize := 1, coarseningMaxrounds := 1 }
      6 6 exampleWide
      ⟨4, 5⟩ [fun n => n + 1, fun n => n + 2]).toOption.map
        (fun rs => rs.map (fun r => (r.H.vertices.map (·.part), r.w0, r.w1))) =
      some [([5, 5, 4, 4], 2, 3), ([5, 5, 4, 4], 4, 2)] :=
  ⟨by decide, exampleWide_dist, by decide, by decide, by decide, by decide +kernel⟩

/-- The two nets of `apart` are a level on which C59 starts. -/
example : ParLevel 2 10 apart ∧ Roomy 4 4 apart :=
  ⟨⟨by decide, C57_size_false.1, by decide, by decide, by decide, by decide, by decide⟩,
    ⟨by decide, by decide, by decide⟩⟩

/-- Two processors of which the second has no vertices. -/
def exampleGap : List RangeOf :=
  [ { H := Hypergraph.create 8 5
        [ { id := 0, nets := [0], weight := 1, part := -1 }, { id := 1, nets := [0, 4], weight := 2, part := -1 },
          { id := 2, nets := [1], weight := 1, part := -1 }, { id := 3, nets := [1, 4], weight := 1, part := -1 },
          { id := 4, nets := [2, 4], weight := 1, part := -1 }, { id := 5, nets := [2], weight := 1, part := -1 },
          { id := 6, nets := [3], weight := 3, part := -1 }, { id := 7, nets := [3], weight := 1, part := -1 } ]
        [ { id := 0, vertices := [0, 1], cost := 1, globalSize := 2 },
          { id := 1, vertices := [2, 3], cost := 1, globalSize := 2 },
          { id := 2, vertices := [4, 5], cost := 1, globalSize := 2 },
          { id := 3, vertices := [6, 7], cost := 1, globalSize := 2 },
          { id := 4, vertices := [1, 3, 4], cost := 1, globalSize := 3 } ], s := 0, e := 8 },
    { H := Hypergraph.create 8 5 [] [], s := 0, e := 0 } ]

/-- Does the program stop with this failure? -/
def failsWith {α : Type} (e : Err) : Res α → Bool
  | .ok _ => false
  | .error e' => decide (e' = e)

theorem eq_of_failsWith {α : Type} {e : Err} {x : Res α} (h : failsWith e x = true) : x = .error e := by
  cases x with
  | ok => simp [failsWith] at h
  | error e' => simpa [failsWith] using h

/-- C60 does not hold: with random sampling a processor without vertices in its range stops the program. All
assumptions of C60 hold. -/
theorem C60_false : exampleGap ≠ [] ∧ Distributed 5 (exampleGap.map (·.H)) ∧
    (∀ x ∈ exampleGap, x.s ≤ x.e ∧ x.e ≤ x.H.vertices.length) ∧
    (∀ x ∈ exampleGap, ∀ v ∈ x.H.vertices, 0 < v.weight) ∧
    (exampleGap.map (fun x => x.H.vertices.length)).sum < 10 ∧
    bisectMultilevelPar exampleParEnv { exampleOpts with sampleSize := 1 }
      11 11 exampleGap ⟨4, 5⟩ [fun n => n + 1, fun n => n + 2] = .error .abort :=
  ⟨by decide, ⟨by
    intro H hH
    simp only [exampleGap, List.map_cons, List.map_nil, List.mem_cons, List.not_mem_nil, or_false] at hH
    rcases hH with rfl | rfl <;>
      exact WF_create (by decide) (by decide) (by decide) (by decide) (by decide) (by decide),
    by decide, by decide, by decide⟩, by decide, by decide, by decide, eq_of_failsWith (by decide +kernel)⟩

end PMondriaan
