import Verif.Model.Text
import Verif.Model.Writer
import Verif.Model.Checks
import Verif.Model.RecBisectPar
import Verif.Model.RecCutPar

/-
Model of the parallel part of tools/PMondriaan.cpp: reading, partitioning, and reporting. The arguments of the
command line are parameters. The settings file (lines 106-112) and the timer are left out; the log (lines 141-152) is in
Model/Report.lean. There is one version for each metric, since the recursion differs (`recursiveBisectPar`,
`recursiveBisectCut`).
-/

namespace PMondriaan

/-- What is undetermined in a run: the orders of the sets and the deliveries in reading, the block partitionings of
a number of things over the processors, the environment of the recursion, the generators of the processors, and the
order of the sets and the delivery in `cutsize`. -/
structure MainEnv where
  order : List Nat → List Nat
  dFree : Delivery (Nat × Int)
  dSize : Delivery (Nat × Int)
  parts : Nat → NetPart
  recEnv : ParRecEnv
  rngs : List Rng
  setOrder : List Int → List Int
  dCut : Delivery LabelMsg

/-- What the processors have after lines 114-128: the result of the recursion (with the recorded bisections), the
load balance (with the message of `load_balance`) and the cut size. -/
structure MainOut where
  run : GroupResult
  balance : List (Option ℚ × Bool)
  cut : List Int

/-- PMondriaan.cpp:114-128: read the file, copy the hypergraph out of the optional (line 121), partition it, and
compute the load balance and the cut size. `none` is the message of line 118. -/
def mainCompute (M : MainEnv) (p k : Nat) (epsilon eta : ℚ) (file : Option (List Char)) (mode : String) :
    Res (Option MainOut) := do
  let r ← readFilePar M.order M.dFree M.dSize M.parts p file mode
  match r with
  | none => pure none
  | some Hs => do
    let Hs ← Hs.mapM (fun H => H.copy)
    let g ← recursiveBisectPar M.recEnv k epsilon eta Hs M.rngs
    let balance ← loadBalancePar M.recEnv.rnd g.Hs k
    let H ← vget g.Hs 0
    let cut ← cutsizePar M.setOrder M.dCut (M.parts H.globalNumberNets) g.Hs .lambdaMinusOne
    pure (some ⟨g, balance, cut⟩)

/-- PMondriaan.cpp:140: the weights of the parts, on each processor. -/
def mainWeights (Hs : List Hypergraph) (k : Nat) : Res (List (List Int)) := globalWeightParts Hs k

/-- PMondriaan.cpp:103-155, the whole parallel part; the files can be opened. The result is what was computed, the
written file and the weights of the parts on each processor. -/
def mainRun (M : MainEnv) (p k : Nat) (epsilon eta : ℚ) (file : Option (List Char)) (mode : String) :
    Res (Option (MainOut × OutFile × List (List Int))) := do
  let r ← mainCompute M p k epsilon eta file mode
  match r with
  | none => pure none
  | some o => do
    let f ← partitioningToFile o.run.Hs k
    let ws ← mainWeights o.run.Hs k
    pure (some (o, f, ws))

/-! ### With the cut-net metric -/

/-- What the processors have after lines 114-128 with the cut-net metric. -/
structure MainCutOut where
  Hs : List Hypergraph
  balance : List (Option ℚ × Bool)
  cut : List Int

/-- PMondriaan.cpp:114-128 with the cut-net metric. -/
def mainComputeCut (M : MainEnv) (C : CutEnv) (p k : Nat) (epsilon eta : ℚ) (file : Option (List Char))
    (mode : String) : Res (Option MainCutOut) := do
  let r ← readFilePar M.order M.dFree M.dSize M.parts p file mode
  match r with
  | none => pure none
  | some Hs => do
    let Hs ← Hs.mapM (fun H => H.copy)
    let Hs ← recursiveBisectCut M.recEnv C k epsilon eta Hs M.rngs
    let balance ← loadBalancePar M.recEnv.rnd Hs k
    let H ← vget Hs 0
    let cut ← cutsizePar M.setOrder M.dCut (M.parts H.globalNumberNets) Hs .cutNet
    pure (some ⟨Hs, balance, cut⟩)

/-- PMondriaan.cpp:103-155 with the cut-net metric; the files can be opened. -/
def mainRunCut (M : MainEnv) (C : CutEnv) (p k : Nat) (epsilon eta : ℚ) (file : Option (List Char)) (mode : String) :
    Res (Option (MainCutOut × OutFile × List (List Int))) := do
  let r ← mainComputeCut M C p k epsilon eta file mode
  match r with
  | none => pure none
  | some o => do
    let f ← partitioningToFile o.Hs k
    let ws ← mainWeights o.Hs k
    pure (some (o, f, ws))

end PMondriaan
