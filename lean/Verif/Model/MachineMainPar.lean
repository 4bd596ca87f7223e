import Verif.Model.MachineMain
import Verif.Model.MachineRecPar

/-
The main program on several processors, connectivity metric, with the 64-bit numbers of the program.
-/

namespace PMondriaan

/-- PMondriaan.cpp:114-128 on `p` processors with the connectivity metric: read the file, copy the hypergraph, partition it,
and compute the load balance and the cut size. The bisections in `M.recEnv` are 64-bit ones. The numbers in the file are in
Model/Text.lean. -/
def mainComputePar64 (M : MainEnv) (p k : Nat) (epsilon eta : ℚ) (file : Option (List Char)) (mode : String) :
    Res (Option MainOut) := do
  let r ← readFilePar M.order M.dFree M.dSize M.parts p file mode
  match r with
  | none => pure none
  | some Hs => do
    let Hs ← Hs.mapM (fun H => H.copy)
    let g ← recursiveBisectPar64 M.recEnv k epsilon eta Hs M.rngs
    let balance ← loadBalancePar64 M.recEnv.rnd g.Hs k
    let H ← vget g.Hs 0
    let cut ← cutsizePar64 M.setOrder M.dCut (M.parts H.globalNumberNets) g.Hs .lambdaMinusOne
    pure (some ⟨g, balance, cut⟩)

/-- PMondriaan.cpp:114-140 without the output file: `mainComputePar64` and the weights of the parts that are logged at the
end. -/
def mainReportPar64 (M : MainEnv) (p k : Nat) (epsilon eta : ℚ) (file : Option (List Char)) (mode : String) :
    Res (Option (MainOut × List (List Int))) := do
  let r ← mainComputePar64 M p k epsilon eta file mode
  match r with
  | none => pure none
  | some o => do
    let ws ← globalWeightParts64 o.run.Hs k
    pure (some (o, ws))

end PMondriaan
