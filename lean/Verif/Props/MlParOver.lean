import Verif.Props.MlParCourse
import Verif.Props.RecBisectPar
import Verif.Props.RecBalancePar
import Verif.Props.MainBalance

/-
Multilevel bisection on several processors can exceed the bounds on the way up although the bisection chosen on the
coarsest level is within them (C84), and then the result of the recursion is not balanced (C62).
-/

namespace PMondriaan

open Spec

/-- On either processor a vertex with three neighbours, one net each. The total weight is 9. -/
def twinStars : List RangeOf :=
  [ { H := Hypergraph.create 8 6
        [ { id := 0, nets := [0], weight := 2, part := -1 }, { id := 1, nets := [0, 1, 2], weight := 1, part := -1 },
          { id := 2, nets := [1], weight := 1, part := -1 }, { id := 3, nets := [2], weight := 1, part := -1 } ]
        [ { id := 0, vertices := [0, 1], cost := 1, globalSize := 2 },
          { id := 1, vertices := [1, 2], cost := 1, globalSize := 2 },
          { id := 2, vertices := [1, 3], cost := 1, globalSize := 2 } ], s := 0, e := 4 },
    { H := Hypergraph.create 8 6
        [ { id := 4, nets := [3], weight := 1, part := -1 }, { id := 5, nets := [3, 4, 5], weight := 1, part := -1 },
          { id := 6, nets := [4], weight := 1, part := -1 }, { id := 7, nets := [5], weight := 1, part := -1 } ]
        [ { id := 3, vertices := [4, 5], cost := 1, globalSize := 2 },
          { id := 4, vertices := [5, 6], cost := 1, globalSize := 2 },
          { id := 5, vertices := [5, 7], cost := 1, globalSize := 2 } ], s := 0, e := 4 } ]

theorem twinStars_dist : Distributed 6 (twinStars.map (·.H)) :=
  ⟨by
    intro H hH
    simp only [twinStars, List.map_cons, List.map_nil, List.mem_cons, List.not_mem_nil, or_false] at hH
    rcases hH with rfl | rfl <;>
      exact WF_create (by decide) (by decide) (by decide) (by decide) (by decide) (by decide),
    by decide, by decide, by decide⟩

/-- Draws 1 when the number of the draw is 1 or 6 up to multiples of 8, otherwise 0. -/
def starsRng : Rng := fun n => if n % 8 = 1 ∨ n % 8 = 6 then 1 else 0

/-- One sample per processor, one round of parallel coarsening. -/
def starsOpts : Options := { oneRoundPar with lpMaxIterations := 0 }

/-- The bisections of the copies of the coarsest hypergraph: part weights and cut. -/
def starsCoarsest : Res (List (Int × Int × Option Int)) := do
  let E := plainParEnv 2 6 10
  let Rs ← createNewPar E.orderNets E.d1 E.d2 E.np twinStars
  let H0 ← Rs.mapM (fun R => R.copy)
  let M ← mergeFreePar (H0.map (fun H => (({} : Contraction), H)))
  let (R, rngs) ← coarsenPar (E.coarse 0) starsOpts (M.map (·.2)) [starsRng, starsRng]
  let Gs ← replicateAll E.dVert E.dCost (R.map (·.2))
  let Bs ← Gs.zipIdx.mapM (fun x => mlLevel (E.seq x.2) x.2 starsOpts 5 5 0 x.1 (rngAt rngs x.2))
  pure (Bs.map (fun B => (partWeight B.1 0, partWeight B.1 1, B.2.1)))

/-- The bisection chosen on the coarsest level has part weights 4 and 5 within the bounds 5 and 5, and cuts four
nets. On the way up both processors move a vertex to part 0 in the same round, and both count the move of the other as
rejected: in the end part 0 weighs 6. All assumptions of C84 hold. -/
theorem C84_bounds_false : ParBisectEnvOk (plainParEnv 2 6 10) twinStars.length 6 10 ∧
    Distributed 6 (twinStars.map (·.H)) ∧
    (∀ x ∈ twinStars, x.s ≤ x.e ∧ x.e ≤ x.H.vertices.length) ∧
    (∀ x ∈ twinStars, ∀ v ∈ x.H.vertices, 0 < v.weight) ∧
    (twinStars.map (fun x => x.H.vertices.length)).sum < 10 ∧ 1 ≤ starsOpts.sampleSize ∧
    starsCoarsest.toOption = some [(4, 5, some 4), (4, 5, some 4)] ∧
    (bisectMultilevelPar (plainParEnv 2 6 10) starsOpts 5 5 twinStars ⟨0, 1⟩ [starsRng, starsRng]).toOption.map
      (fun rs => (rangesCut 6 (relabelled twinStars rs), rs.map (fun r => (r.H.vertices.map (·.part), r.w0, r.w1)))) =
      some (2, [([1, 0, 0, 0], 3, 2), ([1, 0, 0, 0], 3, 1)]) :=
  ⟨plainParEnv_ok 2 6 10 (by decide), twinStars_dist, by decide, by decide, by decide, by decide, by decide +kernel,
    by decide +kernel⟩

/-- The recursion with `sample_size` 2, that is, one sample for each of the two processors. -/
def starsRec : ParRecEnv := plainRecEnv { starsOpts with sampleSize := 2 } 2 6 10

/-- C62 without the condition on the bisections is false: two parts, two processors, multilevel bisection. The
total weight 9 is at most twice `maxweight` 5, the recursion ends normally, and part 0 weighs 6. -/
theorem C62_multilevel_false : RunsCode starsRec { starsOpts with sampleSize := 2 } 2 6 10 ∧
    Distributed 6 (twinStars.map (·.H)) ∧
    (∀ H ∈ twinStars.map (·.H), ∀ v ∈ H.vertices, 0 < v.weight) ∧
    (((twinStars.map (·.H)).flatMap (·.vertices)).map (·.weight)).sum = 9 ∧
    maxWeight starsRec.rnd (1 / 8) 9 2 = 5 ∧
    (recursiveBisectPar starsRec 2 (1 / 8) (1 / 10) (twinStars.map (·.H)) [starsRng, starsRng]).toOption.map
      (fun r => ((r.Hs.map (fun H => partWeight H 0)).sum, r.splits)) =
      some (6, [⟨2, 1, 0, 1, 5, 5, 6, 3⟩]) :=
  ⟨plainRecEnv_runs _ 6 10 (by decide), twinStars_dist, by decide, by decide, by decide +kernel, by decide +kernel⟩

end PMondriaan
