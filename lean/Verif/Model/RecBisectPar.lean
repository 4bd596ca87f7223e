import Verif.Model.BisectPar
import Verif.Model.Redistribute

/-
Model of `recursive_bisect` (src/recursive_bisection.cpp:26-199) on several processors, with the lambda
metric. With the cut-net metric `remove_cut_nets` synchronizes the full world from within a group, and the
processors can lose step (`C49_false`); that is modelled in `RecCutPar.lean`.

The processors of a group work in supersteps, the groups are independent of each other. When several groups
fail, the model reports the failure of the first.
-/

namespace PMondriaan

/-- A bisection function on all processors of a group: hypergraphs and ranges, bounds, labels, generators. -/
abbrev ParBisector := List RangeOf → Int → Int → Interval → List Rng → Res (List RState)

/-- bisect.cpp:27-51 `bisect` on more than one processor. -/
def bisectPar {F : Type} (E : ParBisectEnv F) (opts : Options) : ParBisector := fun xs max0 max1 labels rngs =>
  if opts.bisectionRandom then
    (xs.zip rngs).mapM (fun x =>
      bisectRandom x.1.H (max0.tdiv xs.length) (max1.tdiv xs.length) x.1.s x.1.e labels x.2)
  else bisectMultilevelPar E opts max0 max1 xs labels rngs

/-- recursive_bisection.cpp:66 and 161 `k_`, the number of labels. -/
def Interval.count (I : Interval) : Nat := (I.length + 1).toNat

/-- The variables of one processor in the parallel loop: `H`, `end` and the generator. `start` is always 0. -/
structure RecProc where
  H : Hypergraph
  fin : Nat
  rng : Rng

/-- A bisection by a group of `p` processors: `p_low`, labels, bounds and total weights. This is not in the code:
the model records the bisections so that properties can refer to them. -/
structure ParSplit where
  p : Nat
  plow : Nat
  low : Int
  high : Int
  max0 : Int
  max1 : Int
  w0 : Int
  w1 : Int
deriving DecidableEq, Repr

/-- What is undetermined: the rounding, and for each group (identified by the sides taken so far, `true` for
the low side) the bisection functions for more than one and for one processor, the order of `nets_to_send` and the
delivery orders of the two queues of the redistribution. -/
structure ParRecEnv where
  rnd : ℚ → ℚ
  bis : List Bool → ParBisector
  alone : List Bool → Bisector
  ord : List Bool → List Nat → List Nat
  dVert : List Bool → Delivery Vertex
  dCost : List Bool → Delivery (Nat × Int)

/-- The environment of the sequential part on a processor that is alone. The queues are those of the
cut-net metric, they are not used. -/
def ParRecEnv.recEnv (P : ParRecEnv) (path : List Bool) : RecEnv where
  rnd := P.rnd
  bis := P.alone path
  cutMetric := false
  d1 := fun _ l => l
  d2 := fun _ l => l

/-- The result: hypergraphs of the processors, and the recorded bisections. -/
structure GroupResult where
  Hs : List Hypergraph
  splits : List ParSplit
  calls : List BisectCall

/-- recursive_bisection.cpp:85-90 `p_low`; with total weight zero a value that is not a number is converted to
`long`. The result is never negative (`C55_range`). -/
def procsLow (rnd : ℚ → ℚ) (w0 w1 : Int) (p klow khigh : Nat) : Res Nat :=
  if w0 + w1 = 0 then .error .ub
  else .ok (if klow = 1 ∧ khigh > 1 then 0 else (pLow rnd w0 w1 p).toNat)

/-- recursive_bisection.cpp:68-69 and 99-100: the labels of the processors with `my_part` 0. -/
def lowLabels (labels : Interval) : Interval :=
  ⟨labels.low, labels.high - ((labels.count - labels.count / 2 : Nat) : Int)⟩

/-- recursive_bisection.cpp:68-69 and 99-100: the labels of the processors with `my_part` 1. -/
def highLabels (labels : Interval) : Interval := ⟨labels.low + ((labels.count / 2 : Nat) : Int), labels.high⟩

/-- recursive_bisection.cpp:93-100: `new_labels` of the processor with rank `s` in its group. -/
def newLabels (labels : Interval) (plow s : Nat) : Interval :=
  if s < plow then lowLabels labels else highLabels labels

/-- recursive_bisection.cpp:106-125: the arguments of `redistribute_hypergraph`. -/
def redistArgs (rnd : ℚ → ℚ) (eta : ℚ) (w0 w1 : Int) (plow : Nat) (rs : List RState) : List RedistArgs :=
  rs.zipIdx.map (fun x =>
    { H := x.1.H
      maxLocal := if x.2 < plow then newMaxLocal rnd w0 plow eta else newMaxLocal rnd w1 (rs.length - plow) eta
      w0 := x.1.w0
      w1 := x.1.w1 })

/-- recursive_bisection.cpp:127-141: the processors after the redistribution. `end` is never negative
(`C46_redistribute`). -/
def afterRedist (rs : List RState) (ys : List (Hypergraph × Int)) : List RecProc :=
  (rs.zip ys).map (fun x => { H := x.2.1, fin := x.2.2.toNat, rng := x.1.rng })

/-- recursive_bisection.cpp:68-81: the bounds and the bisection. -/
def groupBisect (P : ParRecEnv) (maxweight : Int) (path : List Bool) (labels : Interval) (weight : Int)
    (xs : List RecProc) : Res ((Int × Int) × List RState) := do
  let k_ := labels.count
  let m ← computeMax P.rnd k_ (k_ / 2) (k_ - k_ / 2) weight maxweight
  let rs ← P.bis path (xs.map (fun x => ⟨x.H, 0, x.fin⟩)) m.1 m.2 labels (xs.map (·.rng))
  pure (m, rs)

/-- recursive_bisection.cpp:150-189 on a processor that is alone, with its only job (lines 54-56 and 137-141). -/
def aloneRun (P : ParRecEnv) (maxweight : Int) (path : List Bool) (labels : Interval) (weight : Int)
    (x : RecProc) : Res GroupResult := do
  let s ← recLoop (P.recEnv path) maxweight (2 * labels.count)
    { start := 0, fin := x.fin, low := labels.low, high := labels.high, weight := weight }
    { H := x.H, rng := x.rng, jobs := [], cut := [], splits := 0, calls := [] }
  pure ⟨[s.H], [], s.calls⟩

/-- recursive_bisection.cpp:64-102, the first half of a round of a group: the bisection, `p_low`, and whether
the processors go on (`new_labels.length() > 0`). The processors of a group must all go on or all stop:
`redistribute_hypergraph` and `split` concern the whole group. -/
def groupHead (P : ParRecEnv) (maxweight : Int) (path : List Bool) (labels : Interval) (weight : Int)
    (xs : List RecProc) : Res (ParSplit × List RState × Bool) := do
  let k_ := labels.count
  let klow := k_ / 2
  let khigh := k_ - klow
  let (m, rs) ← groupBisect P maxweight path labels weight xs
  let w0 := (rs.map (·.w0)).foldl (· + ·) 0
  let w1 := (rs.map (·.w1)).foldl (· + ·) 0
  let plow ← procsLow P.rnd w0 w1 xs.length klow khigh
  let split : ParSplit := ⟨xs.length, plow, labels.low, labels.high, m.1, m.2, w0, w1⟩
  let go ← agreed ((List.range xs.length).map (fun s =>
    decide ((newLabels labels plow s).length > 0)))
  pure (split, rs, go)

/-- recursive_bisection.cpp:64-146, one round of a group. The last component has the processors after the
redistribution when they go on. -/
def groupSplit (P : ParRecEnv) (eta : ℚ) (maxweight : Int) (path : List Bool) (labels : Interval) (weight : Int)
    (xs : List RecProc) : Res (ParSplit × List RState × Option (List RecProc)) := do
  let (split, rs, go) ← groupHead P maxweight path labels weight xs
  if go then do
    let ys ← redistribute (P.ord path) (P.dVert path) (P.dCost path) split.plow labels.low labels.high
      (redistArgs P.rnd eta split.w0 split.w1 split.plow rs)
    pure (split, rs, some (afterRedist rs ys))
  else pure (split, rs, none)

/-- recursive_bisection.cpp:64-189, a group of processors. -/
def recPar (P : ParRecEnv) (eta : ℚ) (maxweight : Int) :
    Nat → List Bool → Interval → Int → List RecProc → Res GroupResult
  | 0, _, _, _, _ => .error .fuel
  | _ + 1, _, _, _, [] => .ok ⟨[], [], []⟩
  | _ + 1, path, labels, weight, [x] => aloneRun P maxweight path labels weight x
  | f + 1, path, labels, weight, x :: y :: l =>
    if labels.length > 0 then do
      let (split, rs, next) ← groupSplit P eta maxweight path labels weight (x :: y :: l)
      match next with
      | none => pure ⟨rs.map (·.H), [split], []⟩
      | some zs => do
        let a ← recPar P eta maxweight f (path ++ [true]) (lowLabels labels) split.w0 (zs.take split.plow)
        let b ← recPar P eta maxweight f (path ++ [false]) (highLabels labels) split.w1 (zs.drop split.plow)
        pure ⟨a.Hs ++ b.Hs, split :: a.splits ++ b.splits, a.calls ++ b.calls⟩
    else pure ⟨(x :: y :: l).map (·.H), [], []⟩

/-- recursive_bisection.cpp:26-199 `recursive_bisect` with the lambda metric. The number of labels at least
halves (rounded up) with every split, `k + 1` rounds suffice. -/
def recursiveBisectPar (P : ParRecEnv) (k : Nat) (epsilon eta : ℚ) (Hs : List Hypergraph) (rngs : List Rng) :
    Res GroupResult := do
  let W ← agreed (globalWeight Hs)
  recPar P eta (maxWeight P.rnd epsilon W k) (k + 1) [] ⟨0, (k : Int) - 1⟩ W
    ((Hs.zip rngs).map (fun x => { H := x.1, fin := x.1.vertices.length, rng := x.2 }))

end PMondriaan
