import Verif.Model.Main
import Verif.Model.MachineRec

/-
The distributed cut size and load balance, and the main program on one processor, with the 64-bit numbers of the
program. The numbers in the file are in Model/Text.lean; numbers of parts, pins and labels are not limited.
-/

namespace PMondriaan

/-- `bulk::sum(world, x)` on `long`s: the values are added in order, starting with zero. -/
def bulkSum64 (xs : List Int) : Res (List Int) := do
  let t ← xs.foldlM (fun t x => long (t + x)) 0
  pure (xs.map (fun _ => t))

/-- hypergraph.cpp:345-352 `global_weight`. -/
def globalWeight64 (Hs : List Hypergraph) : Res (List Int) := do
  let ws ← Hs.mapM totalWeight64
  bulkSum64 ws

/-- hypergraph.cpp:392-403: what one processor does with the weights of the parts and the total. -/
def balanceOne64 (rnd : ℚ → ℚ) (k : Nat) (x : List Int × Int) : Res (Option ℚ × Bool) := do
  let t ← x.1.foldlM (fun t w => long (t + w)) 0
  let m ← maxElement x.1
  let _ ← long (m * k)
  pure (imbalance rnd m x.2 k, decide (t ≠ x.2))

/-- hypergraph.cpp:388-406 `load_balance(world, H, k)` on all processors. -/
def loadBalancePar64 (rnd : ℚ → ℚ) (Hs : List Hypergraph) (k : Nat) : Res (List (Option ℚ × Bool)) := do
  let wss ← globalWeightParts64 Hs k
  let W ← globalWeight64 Hs
  (wss.zip W).mapM (balanceOne64 rnd k)

/-- hypergraph.cpp:478-497, one owned net: its labels and its cost. With the connectivity metric the product and
the sum are `size_t`s. -/
def cutLocalStep64 (metric : Metric) (r : Int) (x : List Int × Int) : Res Int :=
  if x.1.length > 1 then
    match metric with
    | .cutNet => long (r + x.2)
    | .lambdaMinusOne => pure (wrap64 (r + ((x.1.length : Int) - 1) * x.2))
  else pure r

/-- hypergraph.cpp:478-497: the local sum over the owned nets. -/
def cutLocal64 (metric : Metric) (sets : List (List Int)) (costs : List Int) : Res Int :=
  (List.zip sets costs).foldlM (cutLocalStep64 metric) 0

/-- hypergraph.cpp:468-497: what one owner computes from the messages it received. -/
def cutOwner64 (np : NetPart) (metric : Metric) (t : Nat) (ms : List LabelMsg) : Res Int := do
  let r ← ms.foldlM (cutReceive np) (List.replicate (np.count t) [], List.replicate (np.count t) 0)
  cutLocal64 metric r.1 r.2

/-- hypergraph.cpp:449-500 `cutsize(world, H, metric)`. -/
def cutsizePar64 (so : List Int → List Int) (d : Delivery LabelMsg) (np : NetPart)
    (Hs : List Hypergraph) (metric : Metric) : Res (List Int) := do
  let outs ← Hs.mapM (cutSends so Hs.length np)
  let rs ← (List.range Hs.length).mapM (fun t => cutOwner64 np metric t (inbox d outs t))
  bulkSum64 rs

/-- PMondriaan.cpp:114-128 on one processor with the connectivity metric; `bis` is a 64-bit bisection. -/
def mainCompute64 (M : MainEnv) (bis : Bisector) (k : Nat) (epsilon : ℚ) (file : Option (List Char)) (mode : String) :
    Res (Option MainOut) := do
  let r ← readFilePar M.order M.dFree M.dSize M.parts 1 file mode
  match r with
  | none => pure none
  | some Hs => do
    let Hs ← Hs.mapM (fun H => H.copy)
    let H ← vget Hs 0
    let rng ← vget M.rngs 0
    let s ← recursiveBisect64 { M.recEnv.recEnv [] with bis := bis } H k epsilon rng
    let balance ← loadBalancePar64 M.recEnv.rnd [s.H] k
    let cut ← cutsizePar64 M.setOrder M.dCut (M.parts s.H.globalNumberNets) [s.H] .lambdaMinusOne
    pure (some ⟨⟨[s.H], [], s.calls⟩, balance, cut⟩)

/-- PMondriaan.cpp:114-128 on one processor with the cut-net metric; `d` and `dPins` deliver what the processor sends
itself. -/
def mainComputeCut64 (M : MainEnv) (d : Delivery Nat) (dPins : Delivery (Nat × Nat × Int)) (bis : Bisector) (k : Nat)
    (epsilon : ℚ) (file : Option (List Char)) (mode : String) : Res (Option MainCutOut) := do
  let r ← readFilePar M.order M.dFree M.dSize M.parts 1 file mode
  match r with
  | none => pure none
  | some Hs => do
    let Hs ← Hs.mapM (fun H => H.copy)
    let H ← vget Hs 0
    let rng ← vget M.rngs 0
    let s ← recursiveBisect64 { M.recEnv.recEnv [] with bis := bis, cutMetric := true, d1 := d, d2 := dPins } H k epsilon rng
    let balance ← loadBalancePar64 M.recEnv.rnd [s.H] k
    let cut ← cutsizePar64 M.setOrder M.dCut (M.parts s.H.globalNumberNets) [s.H] .cutNet
    pure (some ⟨[s.H], balance, cut⟩)

end PMondriaan
