import Verif.Model.RecBisect
import Verif.Model.SyncCount

/-
Model of `load_balance`, `check_maps` (src/hypergraph/hypergraph.cpp) and `check_C`
(src/multilevel_bisect/KLFM/KLFM.cpp and KLFM_parallel.cpp).
-/

namespace PMondriaan

/-! ### load_balance -/

/-- `*std::max_element(begin, end)`; for an empty vector the past-the-end iterator is read. -/
def maxElement : List Int → Res Int
  | [] => .error .ub
  | x :: l => .ok (l.foldl max x)

/-- hypergraph.cpp:381 and 403: the division and the subtraction. Division by zero gives an infinity or a value
that is not a number: `none`. -/
def imbalance (rnd : ℚ → ℚ) (m W : Int) (k : Nat) : Option ℚ :=
  if W = 0 then none else some (rnd (rnd (rnd ((m * k : Int) : ℚ) / rnd (W : ℚ)) - 1))

/-- hypergraph.cpp:377-383 `load_balance(H, k)`. -/
def loadBalance (rnd : ℚ → ℚ) (H : Hypergraph) (k : Nat) : Res (Option ℚ) := do
  let ws ← H.weightAllParts k
  let m ← maxElement ws
  pure (imbalance rnd m H.totalWeight k)

/-- hypergraph.cpp:388-406 `load_balance(world, H, k)` on all processors: the value returned, and whether the
message of line 397 is printed. -/
def loadBalancePar (rnd : ℚ → ℚ) (Hs : List Hypergraph) (k : Nat) : Res (List (Option ℚ × Bool)) := do
  let wss ← globalWeightParts Hs k
  (wss.zip (globalWeight Hs)).mapM (fun x => do
    let m ← maxElement x.1
    pure (imbalance rnd m x.2 k, decide (x.1.foldl (· + ·) 0 ≠ x.2)))

/-! ### check_maps -/

/-- The messages of `check_maps`. -/
inductive MapMsg
  | vertexNotFound | vertexIncorrect | netNotFound | netIncorrect
deriving DecidableEq, Repr

/-- hypergraph.cpp:250-254 and 264-268: the check of a vertex id. -/
def checkVertex (H : Hypergraph) (u : Nat) : Res (List MapMsg) :=
  if H.isLocal u then do
    let v ← H.vertexOf u
    pure (if v.id ≠ u then [.vertexIncorrect] else [])
  else pure [.vertexNotFound]

/-- hypergraph.cpp:256-260 and 270-274: the check of a net id. -/
def checkNet (H : Hypergraph) (e : Nat) : Res (List MapMsg) :=
  if H.isLocalNet e then do
    let j ← H.localIdNet e
    let n ← vget H.nets j
    pure (if n.id ≠ e then [.netIncorrect] else [])
  else pure [.netNotFound]

/-- hypergraph.cpp:248-277 `check_maps`: the messages in order. -/
def checkMaps (H : Hypergraph) : Res (List MapMsg) := do
  let a ← H.vertices.mapM (fun v => do
    let m ← checkVertex H v.id
    let ms ← v.nets.mapM (checkNet H)
    pure (m ++ ms.flatten))
  let b ← H.nets.mapM (fun n => do
    let ms ← n.vertices.mapM (checkVertex H)
    let m ← checkNet H n.id
    pure (ms.flatten ++ m))
  pure (a.flatten ++ b.flatten)

/-! ### check_C -/

/-- KLFM.cpp:149-156 and KLFM_parallel.cpp:545-554: the comparison; a message is the position and the part. The
name of the net in the message is read from `H.nets()`. -/
def compareCounts (H : Hypergraph) (C good : List Cnt) : Res (List (Nat × Nat)) := do
  let ms ← C.zipIdx.mapM (fun x => do
    let c ← vget good x.2
    let a ← runIf (x.1.c0 ≠ c.c0) (do let _ ← vget H.nets x.2; pure [(x.2, 0)]) []
    let b ← runIf (x.1.c1 ≠ c.c1) (do let _ ← vget H.nets x.2; pure [(x.2, 1)]) []
    pure (a ++ b))
  pure ms.flatten

/-- KLFM.cpp:147-157 `check_C(H, C)`. -/
def checkC (H : Hypergraph) (C : List Cnt) : Res (List (Nat × Nat)) := do
  let good ← initCounts H
  compareCounts H C good

/-- KLFM_parallel.cpp:543-555 `check_C(world, H, C)` on all processors. -/
def checkCPar (d : Delivery (Nat × Int)) (np : NetPart) (xs : List (Hypergraph × List Cnt)) :
    Res (List (List (Nat × Nat))) := do
  let good ← initCountsPar d np (xs.map (·.1))
  (xs.zip good).mapM (fun x => compareCounts x.1.1 x.1.2 x.2)

end PMondriaan
