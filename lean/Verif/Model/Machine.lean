import Verif.Model.Checks
import Verif.Model.Contraction

/-
The functions that add up and multiply weights and costs, with the 64-bit numbers of the program:
`long` arithmetic that overflows is undefined behaviour, `size_t` arithmetic wraps around. The
other files of the model use unbounded numbers; C81 says when that makes no difference.
-/

namespace PMondriaan

/-- The result of an operation on `long`: undefined when it does not fit in 64 bits. -/
def long (x : Int) : Res Int := if -2 ^ 63 ≤ x ∧ x < 2 ^ 63 then .ok x else .error .ub

/-- A `size_t` or `unsigned long` value stored in a `long`: it wraps around. -/
def wrap64 (x : Int) : Int := (x + 2 ^ 63) % 2 ^ 64 - 2 ^ 63

/-- hypergraph.cpp:30-36 `total_weight`. -/
def totalWeight64 (H : Hypergraph) : Res Int := H.vertices.foldlM (fun t v => long (t + v.weight)) 0

/-- hypergraph.cpp:52-54: one vertex of `weight_all_parts`. -/
def weightStep64 (t : List Int) (v : Vertex) : Res (List Int) := do
  let x ← vgetI t v.part
  let y ← long (x + v.weight)
  vsetI t v.part y

/-- hypergraph.cpp:50-56 `weight_all_parts`. -/
def weightAllParts64 (H : Hypergraph) (k : Nat) : Res (List Int) :=
  H.vertices.foldlM weightStep64 (List.replicate k 0)

/-- One `lhs += rhs` of `bulk::foldl_each` on vectors. -/
def addEach64 (a b : List Int) : Res (List Int) := (List.zip a b).mapM (fun x => long (x.1 + x.2))

/-- hypergraph.cpp:363-372 `global_weight_parts`. -/
def globalWeightParts64 (Hs : List Hypergraph) (k : Nat) : Res (List (List Int)) := do
  let ws ← Hs.mapM (fun H => weightAllParts64 H k)
  let sum ← ws.foldlM addEach64 (List.replicate k 0)
  pure (Hs.map (fun _ => sum))

/-- hypergraph.cpp:377-383 `load_balance(H, k)`: `max_weight_part * k` is a product of two `long`s. -/
def loadBalance64 (rnd : ℚ → ℚ) (H : Hypergraph) (k : Nat) : Res (Option ℚ) := do
  let ws ← weightAllParts64 H k
  let m ← maxElement ws
  let _ ← long (m * k)
  let W ← totalWeight64 H
  pure (imbalance rnd m W k)

/-- hypergraph.cpp:414-439: one net. The cost of a cut net is added as a `long`; the product with
`labels_net.size() - 1` is a `size_t`, and so is the sum with it. -/
def cutStep64 (H : Hypergraph) (metric : Metric) (r : Int) (n : Net) : Res Int := do
  let s ← labelsNet H n
  if s.length > 1 then
    match metric with
    | .cutNet => long (r + n.cost)
    | .lambdaMinusOne => pure (wrap64 (r + ((s.length : Int) - 1) * n.cost))
  else pure r

/-- hypergraph.cpp:411-444 `cutsize(H, metric)`. -/
def cutsize64 (H : Hypergraph) (metric : Metric) : Res Int := H.nets.foldlM (cutStep64 H metric) 0

namespace Contraction

/-- contraction.cpp:156-171: the part for a free vertex of weight `w`; the operations in the order
in which they are evaluated. -/
def choosePart64 (w0 w1 max0 max1 w : Int) (rng : Rng) : Res (Int × Rng) := do
  let a ← long (w0 + w)
  let b ← long (w1 + w)
  if a > max0 ∧ b > max1 then pure (0, rng)
  else if a > max0 then pure (1, rng)
  else if b > max1 then pure (0, rng)
  else do
    let x ← long (w0 * max1)
    let y ← long (w1 * max0)
    if x < y then pure (0, rng)
    else if x > y then pure (1, rng)
    else pure ((rng.draw.1 % 2 : Nat), rng.draw.2)

/-- contraction.cpp:153-175: one free vertex. The sum that line 172 stores was computed before. -/
def assignStep64 (max0 max1 : Int) (s : AState) (f : Nat × Int) : Res AState := do
  let (part, rng) ← choosePart64 s.w0 s.w1 max0 max1 f.2 s.rng
  let H' ← addFree s.H f part
  pure { H := H',
         w0 := if part = 0 then s.w0 + f.2 else s.w0,
         w1 := if part = 0 then s.w1 else s.w1 + f.2,
         rng := rng }

/-- contraction.cpp:146-176 `assign_free_vertices_`. -/
def assignGreedy64 (srt : List (Nat × Int) → List (Nat × Int)) (C : Contraction) (H : Hypergraph)
    (w0 w1 max0 max1 : Int) (rng : Rng) : Res AState :=
  (srt C.free).foldlM (assignStep64 max0 max1) { H := H, w0 := w0, w1 := w1, rng := rng }

/-- contraction.cpp:33-50 `assign_free_vertices` (sequential). -/
def assignFree64 (srt : List (Nat × Int) → List (Nat × Int)) (C : Contraction) (H : Hypergraph)
    (max0 max1 : Int) (rng : Rng) : Res AState := do
  let ws ← weightAllParts64 H 2
  let w0 ← vget ws 0
  let w1 ← vget ws 1
  if C.globalFree = 0 then pure { H := H, w0 := w0, w1 := w1, rng := rng }
  else assignGreedy64 srt C H w0 w1 max0 max1 rng

end Contraction

open Contraction

/-- contraction.cpp:79-81: the weight to give to part 0. -/
def target64 (w0 w1 max0 max1 free : Int) : Res Int := do
  let x ← long (w1 * max0)
  let y ← long (w0 * max1)
  let d ← long (x - y)
  let z ← long (free * max0)
  let n ← long (d + z)
  let m ← long (max0 + max1)
  if m = 0 then .error .ub else long (n.tdiv m)

/-- contraction.cpp:84-90. -/
def splitLoop64 (target : Int) : List Int → Int → Nat → Res (Int × Nat)
  | [], assigned, t => pure (assigned, t)
  | x :: xs, assigned, t => do
    let a ← long (assigned + x)
    if a ≤ target then splitLoop64 target xs a (t + 1) else pure (assigned, t)

/-- contraction.cpp:94-109: what processor `r` does after the first sync. -/
def assignOne64 (srt : List (Nat × Int) → List (Nat × Int)) (max0 max1 w0 w1 : Int)
    (locals : List Int) (assigned : Int) (split : Nat) (s : CProc) (rng : Rng) (r : Nat) :
    Res AState := do
  let w0' ← long (w0 + assigned)
  if r < split then do
    let H' ← s.1.assignAll s.2 0
    pure { H := H', w0 := w0', w1 := w1, rng := rng }
  else if r > split then do
    let H' ← s.1.assignAll s.2 1
    pure { H := H', w0 := w0', w1 := w1, rng := rng }
  else do
    let w1' ← (locals.drop (split + 1)).foldlM (fun a x => long (a + x)) w1
    assignGreedy64 srt s.1 s.2 w0' w1' max0 max1 rng

/-- contraction.cpp:56-118 `assign_free_vertices(world, H, …)` on all processors. -/
def assignFreePar64 (srt : List (Nat × Int) → List (Nat × Int)) (S : List CProc) (max0 max1 : Int)
    (rngs : Nat → Rng) : Res (List AState) := do
  let wss ← globalWeightParts64 (S.map (·.2)) 2
  let ws ← vget wss 0
  let w0 ← vget ws 0
  let w1 ← vget ws 1
  if S.all (fun s => s.1.globalFree == 0) then
    pure (S.zipIdx.map (fun x => { H := x.1.2, w0 := w0, w1 := w1, rng := rngs x.2 }))
  else if S.any (fun s => s.1.globalFree == 0) then .error .fuel
  else do
    let s0 ← vget S 0
    let target ← target64 w0 w1 max0 max1 s0.1.globalFree
    let locals := S.map (fun s => s.1.localFree)
    let (assigned, split) ← splitLoop64 target locals 0 0
    let rs ← S.zipIdx.mapM (fun x =>
      assignOne64 srt max0 max1 w0 w1 locals assigned split x.1 (rngs x.2) x.2)
    match rs[split]? with
    | some a => pure (rs.map (fun r => { r with w0 := a.w0, w1 := a.w1 }))
    | none => pure rs

end PMondriaan
