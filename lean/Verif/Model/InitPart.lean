import Verif.Model.LabelProp

/-
Model of src/multilevel_bisect/initial_partitioning.cpp and sample.cpp.
-/

namespace PMondriaan

/-! ### initial_partitioning.cpp -/

/-- initial_partitioning.cpp:43-45 and 67-69: `H(i).set_part(L[i])` for all positions. -/
def setPartsFrom (H : Hypergraph) (L : List Int) : Res Hypergraph :=
  (List.range H.vertices.length).foldlM (fun H i => do
    let p ← vget L i
    H.setPartAt i p) H

/-- initial_partitioning.cpp:38-50: one round up to and including `KLFM`. `fuel` is the bound on the
while loops inside `KLFM`. -/
def ipRound (fuel : Nat) (shuf : Shuffle) (opts : Options) (max0 max1 : Int) (H : Hypergraph)
    (rng : Rng) : Res PassResult := do
  let s ← lpBisect shuf H (List.replicate H.nets.length ⟨0, 0⟩) opts.lpMaxIterations max0 max1 rng
  let H1 ← setPartsFrom H s.L
  KLFM fuel H1 s.C ⟨H1.weightPart 0, H1.weightPart 1⟩ max0 max1 opts s.rng none

/-- initial_partitioning.cpp:30-32: `H`, the generator, `L_best`, `best_cut`, `best_imbalance`.
`none` is `LONG_MAX`; the cutsizes and weights are assumed to be below it. -/
structure IPState where
  H : Hypergraph
  rng : Rng
  L : List Int
  cut : Option Int
  imb : Option Int

/-- `x < o`, where `none` is `LONG_MAX`. -/
def ltMax (x : Int) (o : Option Int) : Bool :=
  match o with
  | none => true
  | some y => x < y

/-- initial_partitioning.cpp:57-58: the acceptance condition. -/
def ipAccept (cut imb : Int) (best bestImb : Option Int) : Bool :=
  (ltMax cut best && imb ≤ 0) ||
    ((best == some cut || ltMax 0 bestImb) && ltMax imb bestImb)

/-- initial_partitioning.cpp:35-65: the body of the loop over the rounds. -/
def ipStep (fuel : Nat) (shuf : Shuffle) (opts : Options) (max0 max1 : Int) (s : IPState)
    (_ : Nat) : Res IPState := do
  let r ← ipRound fuel shuf opts max0 max1 s.H s.rng
  let imb := max (r.H.weightPart 0 - max0) (r.H.weightPart 1 - max1)
  if ipAccept r.cut imb s.cut s.imb then
    pure { H := r.H, rng := r.rng, L := r.H.vertices.map (·.part), cut := some r.cut,
           imb := some imb }
  else pure { s with H := r.H, rng := r.rng }

/-- initial_partitioning.cpp:21-72 `initial_partitioning`: the hypergraph, the returned cutsize
and the generator. -/
def initialPartitioning (fuel : Nat) (shuf : Shuffle) (H : Hypergraph) (max0 max1 : Int)
    (opts : Options) (rng : Rng) : Res (Hypergraph × Option Int × Rng) := do
  let s ← (List.range 10).foldlM (ipStep fuel shuf opts max0 max1)
    { H := H, rng := rng, L := List.replicate H.vertices.length 0, cut := none, imb := none }
  let H' ← setPartsFrom s.H s.L
  pure (H', s.cut, s.rng)

/-! ### sample.cpp -/

/-- sample.cpp:31-39: the while loop. `acc draw left size` is the outcome of the floating-point
comparison `rng()/rng.max() <= s_left/size`. The loop stops after at most `size` iterations, because
it aborts (assert of line 32) when nothing is left. -/
def sampleLoop (acc : Nat → Nat → Nat → Bool) : Nat → Nat → Nat → Rng → Res (List Nat × Rng)
  | size, left, cur, rng =>
    if left = 0 then .ok ([], rng)
    else match size with
      | 0 => .error .abort
      | n + 1 => do
        if acc rng.draw.1 left (n + 1) then
          let r ← sampleLoop acc n (left - 1) (cur + 1) rng.draw.2
          pure (cur :: r.1, r.2)
        else sampleLoop acc n left (cur + 1) rng.draw.2

/-- sample.cpp:14-43 `sample_random`. -/
def sampleRandom (acc : Nat → Nat → Nat → Bool) (H : Hypergraph) (ns : Nat) (rng : Rng) :
    Res (List Nat × Rng) :=
  if H.vertices.length = 0 then .error .abort
  else if ns > H.vertices.length then .ok (List.range H.vertices.length, rng)
  else sampleLoop acc H.vertices.length ns 0 rng

/-- sample.cpp:54-57: `count_label[l]++` for all labels. -/
def countLabels (k : Nat) (labels : List Nat) : Res (List Nat) :=
  labels.foldlM (fun c l => do
    let x ← vget c l
    pure (c.set l (x + 1))) (List.replicate k 0)

/-- sample.cpp:66-68: samples, `found_sample`, `number_samples_found`, `count_label`, generator. -/
structure SLState where
  samples : List Nat
  found : List Bool
  nr : Nat
  count : List Int
  rng : Rng

/-- sample.cpp:72-79: one iteration of the while loop. `acc draw count` is the outcome of the
floating-point comparison `rng()/rng.max() < 1/count_label[l]`. The generator is used only when no
sample has been found for the label. -/
def sampleLpStep (acc : Nat → Int → Bool) (labels : List Nat) (s : SLState) (cur : Nat) :
    Res SLState := do
  let l ← vget labels cur
  let f ← vget s.found l
  let c ← vget s.count l
  if f then pure { s with count := s.count.set l (c - 1) }
  else if acc s.rng.draw.1 c then
    pure { samples := s.samples ++ [cur], found := s.found.set l true, nr := s.nr + 1,
           count := s.count.set l (c - 1), rng := s.rng.draw.2 }
  else pure { s with count := s.count.set l (c - 1), rng := s.rng.draw.2 }

/-- sample.cpp:70-81: the while loop; the second argument is the number of vertices left. -/
def sampleLpLoop (acc : Nat → Int → Bool) (labels : List Nat) (target : Int) :
    Nat → Nat → SLState → Res SLState
  | 0, _, s => .ok s
  | n + 1, cur, s =>
    if (s.nr : Int) < target then do
      let s' ← sampleLpStep acc labels s cur
      sampleLpLoop acc labels target n (cur + 1) s'
    else .ok s

/-- sample.cpp:49-84 `sample_lp`. `sample_size - empty_count` is computed with the exact values
(it is never negative). -/
def sampleLp (shuf : Shuffle) (acc : Nat → Int → Bool) (H : Hypergraph) (opts : Options)
    (rng : Rng) : Res (List Nat × Rng) := do
  let (labels, rng) ← labelPropagation shuf H opts.sampleSize opts.lpMaxIterations 1 rng
  let count ← countLabels opts.sampleSize labels
  let empty := (count.filter (· = 0)).length
  let s ← sampleLpLoop acc labels ((opts.sampleSize : Int) - empty) H.vertices.length 0
    { samples := [], found := List.replicate opts.sampleSize false, nr := 0,
      count := count.map (fun (x : Nat) => (x : Int)), rng := rng }
  pure (s.samples, s.rng)

end PMondriaan
