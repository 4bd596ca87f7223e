import Verif.Proofs.ParCourse
import Verif.Props.MlPar

/-
C84: on several processors the bisection chosen on the coarsest level gets no worse on the way up.
-/

namespace PMondriaan

open Spec

section

variable {F : Type} {E : ParBisectEnv F} {N T : Nat}

/-- C84: on several processors `bisect_multilevel` coarsens in parallel until the hypergraph is small, the rounds are
used up or a round removes too few vertices. Every processor then bisects a copy of the coarsest hypergraph; the best of
these bisections is chosen; and the labels given in the end to the vertices in the ranges cut at most as many nets
as that one. What is missing: the two ways to fail of C59 (and a division by zero when the bounds have sum zero); vertices of
weight zero; `2^31` or more nets. -/
theorem C84_partial {xs : List RangeOf} (hE : ParBisectEnvOk E xs.length N T) (hne : xs ≠ [])
    (hD : Distributed N (xs.map (·.H))) (hr : ∀ x ∈ xs, x.s ≤ x.e ∧ x.e ≤ x.H.vertices.length)
    (hpos : ∀ x ∈ xs, ∀ v ∈ x.H.vertices, 0 < v.weight) (hN : N < 2147483648)
    (hT : (xs.map (fun x => x.H.vertices.length)).sum < T) {labels : Interval}
    (hl : labels.low ≠ labels.high) (opts : Options) (ho : opts.samplingLp = true → 1 ≤ opts.sampleSize) (max0 max1 : Int)
    {rngs : List Rng} (hrn : rngs.length = xs.length) :
    (∃ rs Rs H0 M n Ks rngs' G, bisectMultilevelPar E opts max0 max1 xs labels rngs = .ok rs ∧
      createNewPar E.orderNets E.d1 E.d2 E.np xs = .ok Rs ∧ Rs.mapM (fun R => R.copy) = .ok H0 ∧
      mergeFreePar (H0.map (fun H => (({} : Contraction), H))) = .ok M ∧
      DescendsPar E opts opts.coarseningMaxrounds 0 true (M.map (·.2)) rngs n Ks rngs' ∧
      BestCopy E opts max0 max1 n Ks rngs' G ∧
      (rangesCut N (relabelled xs rs) : Int) ≤ cutValue .cutNet G) ∨
    (¬ ((xs.map (fun x => ((inRange x).map (·.weight)).sum)).sum ≤ max0 ∧
        (xs.map (fun x => ((inRange x).map (·.weight)).sum)).sum ≤ max1) ∧
      bisectMultilevelPar E opts max0 max1 xs labels rngs = .error .ub) ∨
    (opts.samplingLp = false ∧ bisectMultilevelPar E opts max0 max1 xs labels rngs = .error .abort) := by
  obtain ⟨Rs, c1, c2⟩ := createNewPar_ok hD hr hE.np hE.d1 hE.d2 hE.orderNets
  obtain ⟨H0, k1, -⟩ := mapM_choose (l := Rs) (f := fun R => R.copy) (P := fun _ _ => True) (by
    intro R hR
    obtain ⟨x, hx, h⟩ := forall2_mem_right c2 hR
    obtain ⟨H', h1, -⟩ := copy_ok h.wf
    exact ⟨H', h1, trivial⟩)
  obtain ⟨M, m1, m2, m3⟩ := start_ok hD c2 k1
  have hlev := started_level hD hne hpos hT m2 (fun m hm => (m3 m hm).2)
  have hlen : (M.map (·.2)).length = xs.length := by rw [List.length_map, m2.length_eq]
  have hrun := mlPar_course hE hN opts ho max0 max1 opts.coarseningMaxrounds 0 (M.map (fun _ => true)) true (M.map (·.2))
    rngs hlen hlev (by rw [List.length_map, m2.length_eq]) (by simp) hrn
  rcases hrun with ⟨L, n, Ks, rngs', G, l1, l2, l3, l4, l5⟩ | ⟨l0, l1⟩ | ⟨l0, l1⟩
  · rcases finishPar_ok hD hne hpos m2 (fun m hm => (m3 m hm).1) l2 hE.srt (max0 := max0) (max1 := max1) hl
      (rngAt (L.map (fun q => q.2.2))) with ⟨f1, f2, f3⟩ | ⟨as, rs, a1, a2, a3, a4⟩
    · right; left
      refine ⟨fun h => ?_, ?_⟩
      · have := started_free hpos m2 f1
        omega
      · unfold bisectMultilevelPar
        simp only [c1, k1, m1, l1, f3, ok_bind, error_bind]
    left
    refine ⟨rs, Rs, H0, M, n, Ks, rngs', G, ?_, c1, k1, m1, l3, l4, ?_⟩
    · unfold bisectMultilevelPar
      simp only [c1, k1, m1, l1, a1, ok_bind]
      exact a2
    · rw [rangesCut_eq hD m2 l2 hl (a3.imp (fun _ _ h => h.1)) a4]
      exact l5
  · right; left
    refine ⟨fun h => l0 (started_roomy hpos m2 h.1 h.2), ?_⟩
    unfold bisectMultilevelPar
    simp only [c1, k1, m1, l1, ok_bind, error_bind]
  · right; right
    refine ⟨l0, ?_⟩
    unfold bisectMultilevelPar
    simp only [c1, k1, m1, l1, ok_bind, error_bind]

end

/-- One round of parallel coarsening, none after. -/
def oneRoundPar : Options := { exampleOpts with sampleSize := 1, maxClustersize := 1, coarseningMaxrounds := 1 }

/-- The bisections of the copies of the coarsest hypergraph after one round: parts of the vertices, part weights, cut. -/
def coarsestCopies (E : ParBisectEnv Nat) (xs : List RangeOf) (max0 max1 : Int) (rngs : List Rng) :
    Res (List (List Int × Int × Int × Option Int)) := do
  let Rs ← createNewPar E.orderNets E.d1 E.d2 E.np xs
  let H0 ← Rs.mapM (fun R => R.copy)
  let M ← mergeFreePar (H0.map (fun H => (({} : Contraction), H)))
  let (R, rngs) ← coarsenPar (E.coarse 0) oneRoundPar (M.map (·.2)) rngs
  let Gs ← replicateAll E.dVert E.dCost (R.map (·.2))
  let Bs ← Gs.zipIdx.mapM (fun x => mlLevel (E.seq x.2) x.2 oneRoundPar max0 max1 0 x.1 (rngAt rngs x.2))
  pure (Bs.map (fun B => (B.1.vertices.map (·.part), partWeight B.1 0, partWeight B.1 1, B.2.1)))

/-- After one round of coarsening the two processors find bisections within the bounds that cut one net and four
nets. The first is chosen, and the labels given in the end cut one net. All assumptions of C84 hold. -/
example : exampleWide ≠ [] ∧ Distributed 5 (exampleWide.map (·.H)) ∧
    (∀ x ∈ exampleWide, x.s ≤ x.e ∧ x.e ≤ x.H.vertices.length) ∧
    (∀ x ∈ exampleWide, ∀ v ∈ x.H.vertices, 0 < v.weight) ∧
    (exampleWide.map (fun x => x.H.vertices.length)).sum < 10 ∧
    (coarsestCopies exampleParEnv exampleWide 6 6 [fun n => n + 1, fun n => n + 2]).toOption =
      some [([1, 0, 1, 0, 0, 1, 1], 5, 6, some 1), ([1, 0, 1, 0, 0, 0, 0], 5, 6, some 4)] ∧
    (bisectMultilevelPar exampleParEnv oneRoundPar 6 6 exampleWide ⟨4, 5⟩ [fun n => n + 1, fun n => n + 2]).toOption.map
      (fun rs => (rangesCut 5 (relabelled exampleWide rs), rs.map (fun r => (r.H.vertices.map (·.part), r.w0, r.w1)))) =
      some (1, [([5, 5, 4, 4], 2, 3), ([5, 5, 4, 4], 4, 2)]) :=
  ⟨by decide, exampleWide_dist, by decide, by decide, by decide, by decide +kernel, by decide +kernel⟩

end PMondriaan
