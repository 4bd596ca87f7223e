import Verif.Spec.Hypergraph

/-
Specification of a hypergraph distributed over processors: the whole hypergraph is the union of
the local ones.
-/

namespace PMondriaan.Spec

open PMondriaan

/-- The pins of net `e` over all processors. -/
def unionPins (Hs : List Hypergraph) (e : Nat) : List Nat :=
  Hs.flatMap (fun H => (H.nets.filter (fun n => n.id = e)).flatMap (·.vertices))

/-- The cost of net `e` (that of the first copy; 0 when no processor has the net). -/
def unionCost (Hs : List Hypergraph) (e : Nat) : Int :=
  match (Hs.flatMap (·.nets)).find? (fun n => n.id == e) with
  | some n => n.cost
  | none => 0

/-- Net `e` of the whole hypergraph. -/
def unionNet (Hs : List Hypergraph) (e : Nat) : Net :=
  { id := e, vertices := unionPins Hs e, cost := unionCost Hs e,
    globalSize := (unionPins Hs e).length }

/-- The whole hypergraph: all vertices, and `N` nets. -/
def unionH (N : Nat) (Hs : List Hypergraph) : Hypergraph :=
  Hypergraph.create (Hs.flatMap (·.vertices)).length N (Hs.flatMap (·.vertices))
    ((List.range N).map (unionNet Hs))

/-- A correctly distributed hypergraph with net ids below `N`: each vertex on one processor, each
local hypergraph consistent, copies of a net agree on its cost. -/
structure Distributed (N : Nat) (Hs : List Hypergraph) : Prop where
  wf : ∀ H ∈ Hs, WF H
  disjoint : ((Hs.flatMap (·.vertices)).map (·.id)).Nodup
  ids : ∀ H ∈ Hs, ∀ n ∈ H.nets, n.id < N
  costs : ∀ H ∈ Hs, ∀ H' ∈ Hs, ∀ n ∈ H.nets, ∀ n' ∈ H'.nets, n.id = n'.id → n.cost = n'.cost

/-- Two processors sharing nets 0 and 2. -/
def exampleD : List Hypergraph :=
  [ Hypergraph.create 4 3
      [ { id := 1, nets := [0, 2], weight := 2, part := 0 },
        { id := 4, nets := [0, 1], weight := 3, part := 1 } ]
      [ { id := 0, vertices := [1, 4], cost := 2, globalSize := 3 },
        { id := 2, vertices := [1], cost := 1, globalSize := 2 },
        { id := 1, vertices := [4], cost := 7, globalSize := 1 } ],
    Hypergraph.create 4 3
      [ { id := 0, nets := [2], weight := 1, part := 1 },
        { id := 3, nets := [0], weight := 5, part := 1 } ]
      [ { id := 2, vertices := [0], cost := 1, globalSize := 2 },
        { id := 0, vertices := [3], cost := 2, globalSize := 3 } ] ]

end PMondriaan.Spec
