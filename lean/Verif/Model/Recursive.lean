import Verif.Model.Hypergraph

/-
Model of include/util/interval.hpp, of `bisect_random` (src/bisect.cpp) and of
`reorder_hypergraph` (src/recursive_bisection.cpp).
-/

namespace PMondriaan

/-- include/util/interval.hpp:7-18 `struct interval`. -/
structure Interval where
  low : Int
  high : Int
deriving DecidableEq, Repr

/-- interval.hpp:10 `length`. -/
def Interval.length (I : Interval) : Int := I.high - I.low

/-- interval.hpp:11-17 `operator()(part)`. -/
def Interval.label (I : Interval) (part : Int) : Int := if part = 0 then I.low else I.high

/-- bisect.cpp:64-67: the hypergraph, `weight_parts` and the generator. -/
structure RState where
  H : Hypergraph
  w0 : Int
  w1 : Int
  rng : Rng

/-- bisect.cpp:68-72: the part for a vertex of weight `w`. -/
def randomPart (max0 max1 w0 w1 w : Int) (draw : Nat) : Nat :=
  let part := draw % 2
  if (if part = 0 then w0 else w1) + w > (if part = 0 then max0 else max1) then (part + 1) % 2
  else part

/-- bisect.cpp:67-76: the vertex at position `i`. -/
def randomStep (max0 max1 : Int) (labels : Interval) (s : RState) (i : Nat) : Res RState := do
  let v ← s.H.vertexAt i
  let part := randomPart max0 max1 s.w0 s.w1 v.weight s.rng.draw.1
  let H' ← s.H.setPartAt i (labels.label part)
  pure { H := H', w0 := if part = 0 then s.w0 + v.weight else s.w0,
         w1 := if part = 0 then s.w1 else s.w1 + v.weight, rng := s.rng.draw.2 }

/-- bisect.cpp:56-79 `bisect_random`. -/
def bisectRandom (H : Hypergraph) (max0 max1 : Int) (start fin : Nat) (labels : Interval)
    (rng : Rng) : Res RState :=
  (List.range' start (fin - start)).foldlM (randomStep max0 max1 labels)
    { H := H, w0 := 0, w1 := 0, rng := rng }

/-- recursive_bisection.cpp:363-365: `while ((H(end - 1).part() != label_low) && (end - 1 != pivot))
end--;` The argument and the result are `end`. Position −1 fails the assert of `H(…)`. -/
def reorderSkip (H : Hypergraph) (low : Int) (pivot : Nat) : Nat → Res Nat
  | 0 => .error .abort
  | e + 1 => do
    let v ← H.vertexAt e
    if v.part ≠ low ∧ e ≠ pivot then reorderSkip H low pivot e else pure (e + 1)

/-- recursive_bisection.cpp:361-369: the outer loop. Every iteration increments `pivot` and `end`
never grows, so `end - start` iterations suffice. -/
def reorderLoop (low high : Int) : Nat → Hypergraph → Nat → Nat → Res (Hypergraph × Nat)
  | 0, H, pivot, fin => if pivot < fin then .error .fuel else .ok (H, fin)
  | f + 1, H, pivot, fin =>
    if pivot < fin then do
      let v ← H.vertexAt pivot
      if v.part = high then do
        let e ← reorderSkip H low pivot fin
        let vs ← vswap H.vertices pivot (e - 1)
        reorderLoop low high f { H with vertices := vs } (pivot + 1) e
      else reorderLoop low high f H (pivot + 1) fin
    else .ok (H, fin)

/-- recursive_bisection.cpp:359-372 `reorder_hypergraph`. Returns the hypergraph and the new
value of `end`, which the last statement can make −1. -/
def reorderHypergraph (H : Hypergraph) (start fin : Nat) (low high : Int) :
    Res (Hypergraph × Int) := do
  let r ← reorderLoop low high (fin - start) H start fin
  pure (r.1.updateMap, (r.2 : Int) - 1)

end PMondriaan
