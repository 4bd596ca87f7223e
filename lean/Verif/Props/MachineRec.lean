import Verif.Proofs.MachineRec
import Verif.Proofs.Nearest
import Verif.Props.MlPar

/-
C107: recursive bisection on one processor in 64-bit signed numbers.
-/

namespace PMondriaan

open Spec

/-- The recursion in 64 bits, for any bisection that agrees in 64 bits up to the limit `L`. -/
theorem recursion_agrees {L : Int} (hL : L ≤ 100000000000000) {P : RecEnv} (hr : RoundsWithin (1 / 2 ^ 53) P.rnd)
    {B : Bisector} {N f k : Nat} (hbis : BisectsWell P.bis N f) (hB : AgreeSmall L B P.bis N f) (hd1 : Fair P.d1)
    (hk : 2 ≤ k) {H : Hypergraph} (hf : Fit N f H) (hne : P.cutMetric = true → ∀ n ∈ H.nets, n.vertices ≠ [])
    {epsilon : ℚ} (heps : 0 ≤ epsilon) (hsmall : (1 + epsilon) * (H.vertices.map (·.weight)).sum ≤ L - 1) (rng : Rng) :
    recursiveBisect64 { P with bis := B } H k epsilon rng = recursiveBisect P H k epsilon rng := by
  have hnn : WeightsNonneg H := fun v hv => le_of_lt (hf.pos v hv)
  have hsum0 : 0 ≤ (H.vertices.map (·.weight)).sum := by
    apply List.sum_nonneg
    intro x hx
    obtain ⟨v, hv, rfl⟩ := List.mem_map.1 hx
    exact hnn v hv
  have hsumL : (H.vertices.map (·.weight)).sum ≤ L := by
    have h0 : (0 : ℚ) ≤ (((H.vertices.map (·.weight)).sum : Int) : ℚ) := by exact_mod_cast hsum0
    have h1 : (((H.vertices.map (·.weight)).sum : Int) : ℚ) ≤ L := by nlinarith
    exact_mod_cast h1
  have hW : H.totalWeight = (H.vertices.map (·.weight)).sum := C08_total_weight H
  obtain ⟨h1, h2, h3⟩ := maxWeight64_eq hL hr heps (W := H.totalWeight) (by omega) (k := k) (by omega)
    (by rw [hW]; exact hsmall)
  obtain ⟨hI, -⟩ := recInv_first (P := P) hk hf hne rng
  unfold recursiveBisect64 recursiveBisect
  rw [totalWeight64_eq hnn (by omega), ok_bind]
  dsimp only
  rw [h1, ok_bind]
  have hloop := recLoop64_eq hL hr hbis hB hd1 h2 h3 hsumL (2 * k) _ _ hI (by
    intro j hj
    simp only [firstState, List.mem_singleton] at hj
    rw [hj]
    dsimp only [firstItem]
    omega)
  simp only [firstItem, firstState] at hloop
  rw [hloop]
  rfl

/-- C107: with multilevel or random bisection, if `(1 + epsilon)` times the total weight is below `3 * 10^9`, the
recursion does not overflow and gives the result of the unlimited numbers, for any draws and any number of parts. -/
theorem C107_recursion {F : Type} {E : Env F} {N : Nat} (hE : E.Ok N) (opts : Options) {P : RecEnv}
    (hP : P.bis = fun H m0 m1 s e l rng => bisectOne E H opts m0 m1 s e l rng)
    (hr : RoundsWithin (1 / 2 ^ 53) P.rnd) (hd1 : Fair P.d1) {k : Nat} (hk : 2 ≤ k) {H : Hypergraph}
    (hf : Fit N E.fuel H) (hne : P.cutMetric = true → ∀ n ∈ H.nets, n.vertices ≠ []) {epsilon : ℚ} (heps : 0 ≤ epsilon)
    (hsmall : (1 + epsilon) * (H.vertices.map (·.weight)).sum ≤ 2999999999) (rng : Rng) :
    recursiveBisect64 { P with bis := fun H m0 m1 s e l rng => bisectOne64 E H opts m0 m1 s e l rng } H k epsilon rng =
      recursiveBisect P H k epsilon rng := by
  refine recursion_agrees (L := 3000000000) (by decide) hr (hP ▸ bisectOne_well hE opts) ?_ hd1 hk hf hne heps
    (le_trans hsmall (by norm_num)) rng
  intro H' hf' hT s e h1 h2 labels hl max0 max1 b0 b1 rng'
  rw [hP]
  exact C104_bisect hE hf'.wf hf'.ids hf'.nets hf'.pos hf'.size h1 h2 labels hl opts b0 b1 hT rng'

/-- C107, random bisection: `10^14` is enough room. -/
theorem C107_random {P : RecEnv} (hP : P.bis = bisectRandom) (hr : RoundsWithin (1 / 2 ^ 53) P.rnd) (hd1 : Fair P.d1)
    {k N f : Nat} (hk : 2 ≤ k) {H : Hypergraph} (hf : Fit N f H)
    (hne : P.cutMetric = true → ∀ n ∈ H.nets, n.vertices ≠ []) {epsilon : ℚ} (heps : 0 ≤ epsilon)
    (hsmall : (1 + epsilon) * (H.vertices.map (·.weight)).sum ≤ 99999999999999) (rng : Rng) :
    recursiveBisect64 { P with bis := bisectRandom64 } H k epsilon rng = recursiveBisect P H k epsilon rng := by
  refine recursion_agrees (L := 100000000000000) (le_refl _) hr (N := N) (f := f) ?_ ?_ hd1 hk hf hne heps
    (le_trans hsmall (by norm_num)) rng
  · rw [hP]
    intro H' _ s e h1 h2 labels hl max0 max1 rng'
    exact C35_bisect_random h1 h2 labels hl max0 max1 rng'
  · intro H' hf' hT s e h1 h2 labels hl max0 max1 _ _ rng'
    rw [hP]
    have hnn : WeightsNonneg H' := fun v hv => le_of_lt (hf'.pos v hv)
    have := slice_sum_le hnn s e
    exact C104_random hnn h2 (by omega) max0 max1 labels rng'

/-- Four free vertices of the same weight. -/
def fourFree (x : Int) : Hypergraph :=
  Hypergraph.create 4 0
    [{ id := 0, nets := [], weight := x, part := -1 }, { id := 1, nets := [], weight := x, part := -1 },
     { id := 2, nets := [], weight := x, part := -1 }, { id := 3, nets := [], weight := x, part := -1 }] []

/-- An environment with rounding to 53 bits. -/
def roundedEnv (bis : Bisector) : RecEnv :=
  { rnd := nearest53, bis := bis, cutMetric := false, d1 := fun _ x => x, d2 := fun _ x => x }

/-- C107 applies to four vertices of weight 1000 and four parts. -/
example (rng : Rng) : recursiveBisect64 (roundedEnv bisectRandom64) (fourFree 1000) 4 (1 / 5) rng =
    recursiveBisect (roundedEnv bisectRandom) (fourFree 1000) 4 (1 / 5) rng :=
  C107_random (P := roundedEnv bisectRandom) (N := 0) (f := 5) rfl nearest53_rounds (fun _ _ => .refl _) (by decide)
    ⟨WF_create (by decide) (by decide) (by decide) (by decide) (by decide) (by decide), by decide, by decide, by decide, by decide⟩ (by decide) (by norm_num)
    (by norm_num [fourFree, Hypergraph.create]) rng

/-- C107 applies to the multilevel bisection of the example into three parts. -/
example (rng : Rng) : recursiveBisect64 (roundedEnv fun H m0 m1 s e l rng => bisectOne64 (exampleEnv 6) H exampleOpts m0 m1 s e l rng)
      exampleH 3 (1 / 5) rng =
    recursiveBisect (roundedEnv fun H m0 m1 s e l rng => bisectOne (exampleEnv 6) H exampleOpts m0 m1 s e l rng)
      exampleH 3 (1 / 5) rng :=
  C107_recursion exampleEnv_ok exampleOpts
    (P := roundedEnv fun H m0 m1 s e l rng => bisectOne (exampleEnv 6) H exampleOpts m0 m1 s e l rng) rfl nearest53_rounds
    (fun _ _ => .refl _) (by decide) exampleH_fit (by decide) (by norm_num)
    (by norm_num [exampleH, Hypergraph.create]) rng

example : (recursiveBisect64 (roundedEnv bisectRandom64) (fourFree 1000) 4 (1 / 5) (fun n => n)).toOption.map
    (fun r => r.H.vertices.map (·.part)) = some [0, 1, 2, 3] := by decide +kernel

/-- C107 needs its condition. Four weights of `10^18` fit in 64 bits, and so does `maxweight` for an imbalance of 2, but
`maxweight` times two parts does not. With an imbalance of `10^19`, `maxweight` does not fit. In both cases the run is
undefined in 64 bits and ends normally with unlimited numbers. -/
theorem C107_overflow :
    ((totalWeight64 (fourFree 1000000000000000000)).toOption.isSome ∧
      (maxWeight64 nearest53 2 4000000000000000000 2).toOption.isSome ∧
      recursiveBisect64 (roundedEnv bisectRandom64) (fourFree 1000000000000000000) 2 2 (fun n => n) = .error .ub ∧
      (recursiveBisect (roundedEnv bisectRandom) (fourFree 1000000000000000000) 2 2 (fun n => n)).toOption.isSome) ∧
    ((totalWeight64 (fourFree 1)).toOption.isSome ∧ maxWeight64 nearest53 10000000000000000000 4 2 = .error .ub ∧
      recursiveBisect64 (roundedEnv bisectRandom64) (fourFree 1) 2 10000000000000000000 (fun n => n) = .error .ub ∧
      (recursiveBisect (roundedEnv bisectRandom) (fourFree 1) 2 10000000000000000000 (fun n => n)).toOption.isSome) :=
  ⟨⟨by decide +kernel, by decide +kernel, eq_of_failsWith (by decide +kernel), by decide +kernel⟩,
    ⟨by decide +kernel, eq_of_failsWith (by decide +kernel), eq_of_failsWith (by decide +kernel), by decide +kernel⟩⟩

end PMondriaan
