import Verif.Model.MachineMainPar

/-
`recursive_bisect` on several processors and the main program, with the cut-net metric and the 64-bit numbers of the program.
As in Model/RecCutPar.lean a group is a program that stops at every synchronization of the full world. Setting nets aside and
adding them again computes nothing with weights and costs, so that these steps are those of Model/RecCutPar.lean; numbers of
splits, labels and positions are not limited.
-/

namespace PMondriaan

/-- recursive_bisection.cpp:150-189, the two nested loops on a processor that is alone, from the test of the inner one. -/
def aloneLoop64 (P : RecEnv) (C : CutEnv) (path : List Bool) (base : Nat) (maxweight : Int) :
    Nat → WorkItem → RecState → List Net → CutProg (RecState × List Net)
  | 0, _, _, _ => .ret (.error .fuel)
  | f + 1, cur, s, cut =>
    if cur.high - cur.low > 0 then
      match splitStep64 P maxweight cur s with
      | .error e => .ret (.error e)
      | .ok (cur', s') => (aloneRemove C path base s' cut).andThen (fun y =>
          aloneLoop64 P C path base maxweight f cur' y.1 y.2)
    else match s.jobs with
      | [] => .ret (.ok (s, cut))
      | j :: js => aloneLoop64 P C path base maxweight f j { s with jobs := js } cut

/-- recursive_bisection.cpp:150-194 on a processor that is alone, which has done `splits` splits before. -/
def aloneCut64 (P : ParRecEnv) (C : CutEnv) (maxweight : Int) (k : Nat) (path : List Bool) (base : Nat)
    (labels : Interval) (weight : Int) (splits : Nat) (x : RecProc) (cut : List Net) :
    CutProg (List (Hypergraph × List Net)) :=
  (aloneLoop64 (P.recEnv path) C path base maxweight (2 * labels.count)
    { start := 0, fin := x.fin, low := labels.low, high := labels.high, weight := weight }
    { H := x.H, rng := x.rng, jobs := [], cut := [], splits := 0, calls := [] } cut).andThen (fun y =>
      lastRemove C path base k (splits + y.1.splits) [(y.1.H, y.2)])

/-- recursive_bisection.cpp:104-141: a group that goes on after the bisection sets nets aside and redistributes. -/
def cutRedist64 (P : ParRecEnv) (C : CutEnv) (eta : ℚ) (path : List Bool) (base : Nat) (labels : Interval)
    (split : ParSplit) (rs : List RState) (cuts : List (List Net)) : CutProg (List (RecProc × List Net)) :=
  (removeSync C path base ((rs.map (·.H)).zip cuts)).andThen (fun ys =>
    .ret (do
      let args ← redistArgs64 P.rnd eta split.w0 split.w1 split.plow (withRest rs ys)
      let zs ← redistribute64 (P.ord path) (P.dVert path) (P.dCost path) split.plow labels.low labels.high args
      pure ((afterRedist (withRest rs ys) zs).zip (ys.map (·.2)))))

/-- recursive_bisection.cpp:64-194, a group of processors with the cut-net metric. `splits` is the number of splits
the processors of the group have done. -/
def recCut64 (P : ParRecEnv) (C : CutEnv) (eta : ℚ) (maxweight : Int) (k : Nat) :
    Nat → List Bool → Nat → Interval → Int → Nat → List (RecProc × List Net) →
      CutProg (List (Hypergraph × List Net))
  | 0, _, _, _, _, _, _ => .ret (.error .fuel)
  | _ + 1, _, _, _, _, _, [] => .ret (.ok [])
  | _ + 1, path, base, labels, weight, splits, [x] =>
    aloneCut64 P C maxweight k path base labels weight splits x.1 x.2
  | f + 1, path, base, labels, weight, splits, x :: y :: l =>
    if labels.length > 0 then
      match groupHead64 P maxweight path labels weight ((x :: y :: l).map (·.1)) with
      | .error e => .ret (.error e)
      | .ok (split, rs, go) =>
        if go then
          (cutRedist64 P C eta path base labels split rs ((x :: y :: l).map (·.2))).andThen (fun zs =>
            bothSides split.plow zs.length
              (recCut64 P C eta maxweight k f (path ++ [true]) base (lowLabels labels) split.w0 (splits + 1)
                (zs.take split.plow))
              (recCut64 P C eta maxweight k f (path ++ [false]) (base + split.plow) (highLabels labels) split.w1
                (splits + 1) (zs.drop split.plow)))
        else lastRemove C path base k (splits + 1) ((rs.map (·.H)).zip ((x :: y :: l).map (·.2)))
    else lastRemove C path base k splits ((x :: y :: l).map (fun z => (z.1.H, z.2)))

/-- recursive_bisection.cpp:26-199 `recursive_bisect` with the cut-net metric. `P.bis` and `P.alone` are 64-bit bisections such
as `bisectPar64` and `bisectOne64`. -/
def recursiveBisectCut64 (P : ParRecEnv) (C : CutEnv) (k : Nat) (epsilon eta : ℚ) (Hs : List Hypergraph)
    (rngs : List Rng) : Res (List Hypergraph) := do
  let Ws ← globalWeight64 Hs
  let W ← agreed Ws
  let M ← maxWeight64 P.rnd epsilon W k
  let ys ← (recCut64 P C eta M k (k + 1) [] 0 ⟨0, (k : Int) - 1⟩ W 0
    ((Hs.zip rngs).map (fun x =>
      (({ H := x.1, fin := x.1.vertices.length, rng := x.2 } : RecProc), ([] : List Net))))).runWorld C.dIds 0
  addCutNets C.dPins ys

/-- PMondriaan.cpp:114-128 on `p` processors with the cut-net metric. -/
def mainComputeCutPar64 (M : MainEnv) (C : CutEnv) (p k : Nat) (epsilon eta : ℚ) (file : Option (List Char))
    (mode : String) : Res (Option MainCutOut) := do
  let r ← readFilePar M.order M.dFree M.dSize M.parts p file mode
  match r with
  | none => pure none
  | some Hs => do
    let Hs ← Hs.mapM (fun H => H.copy)
    let Hs ← recursiveBisectCut64 M.recEnv C k epsilon eta Hs M.rngs
    let balance ← loadBalancePar64 M.recEnv.rnd Hs k
    let H ← vget Hs 0
    let cut ← cutsizePar64 M.setOrder M.dCut (M.parts H.globalNumberNets) Hs .cutNet
    pure (some ⟨Hs, balance, cut⟩)

/-- PMondriaan.cpp:114-140 on `p` processors with the cut-net metric, without the file with the result (129-138): the program
also reports the weights of the parts. -/
def mainReportCutPar64 (M : MainEnv) (C : CutEnv) (p k : Nat) (epsilon eta : ℚ) (file : Option (List Char)) (mode : String) :
    Res (Option (MainCutOut × List (List Int))) := do
  let r ← mainComputeCutPar64 M C p k epsilon eta file mode
  match r with
  | none => pure none
  | some o => do
    let ws ← globalWeightParts64 o.Hs k
    pure (some (o, ws))

end PMondriaan
